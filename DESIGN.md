# Formal model of HeroicKatora/static-alloc — design

Technique: an executable, total Lean 4 model of the source in `/repo`, written function by
function, plus theorems about it that are checked by Lean's kernel. No bound on sizes, numbers of
threads, lengths of histories etc. anywhere; all properties are proved by induction/invariants.

## Layout of the Lean project (`/verif/lean`)

* `Verif/Spec/*`   – small specifications, independent of the model (regions, disjointness, alignment,
  "first aligned address", the sequential bump-pointer object, linearizability, bounded lists, ...).
* `Verif/Model/*`  – the model; each definition cites the file and lines it models and says where it simplifies.
* `Verif/Proofs/*` – lemmas (not part of what a reader has to trust or read).
* `Verif/Props/*`  – one theorem (or a few) per property, with `example`s showing that the hypotheses are met by
  concrete non-trivial cases.
* `Verif/Cases/*`  – every theorem of `Props` that has hypotheses is applied here to concrete reachable states and programs
  (only `example`s and auxiliary definitions), so none is vacuous. `Cases/RepoTests.lean` runs the tests of the project
  itself (`/repo/*/tests`, `mod tests`) on the model and checks that the model gives the results that they assert.

## Modelling conventions

* `usize` is a `Nat`; every operation that can overflow is written with an explicit modulus `W = 2^bits`
  (`wrapping_add`, `checked_*`, `saturating_sub`), the pointer width being a parameter (16, 32 or 64 bit).
* Addresses are `Nat`s. An allocated object occupies `[base, base+len)` with `0 < base` and
  `base+len <= W` (guaranteed by the language for every Rust object).
* `ptr.align_offset(a)` for stride-1 pointers is `(a - addr % a) % a`; for stride-0 pointees it is 0 or `usize::MAX`.
* A `Layout` is (size, align); validity = align is a power of two and size rounded up to align is at most `isize::MAX`.
* Panics, undefined behaviour and ordinary results are distinguished (`Outcome`).
* Concurrency: the only shared mutable word of the sync `Bump` is one `SeqCst` atomic, so interleaving semantics of its
  accesses (load, compare_exchange) plus the (non-atomic) writes of values is exact as long as there are no data races on the
  storage bytes – and race freedom is what C01/C11 show. This is itself proved, from the axioms of the memory model of C++20/Rust
  (C90, `Spec/MemoryModel`; between two calls of `reset`, which needs exclusive access).
* Destructors are modelled by a log of dropped values (and an oracle which destructors panic).

## Per property

| id | what is modelled | how it is proved |
|----|------------------|------------------|
| C01 C02 C04 C05 | small-step machine of threads over `Bump` (call, local computation, CAS, load, value write), any schedule | inductive invariant over schedules (live regions lie below the level, pairwise disjoint) |
| C03 | assertions/unwraps are explicit panics in the machine | case analysis of the local computation + invariant |
| C06 C07 C12 C13 | as above | monotonicity of "first aligned address"; invariant |
| C08 C09 | number of own steps of a call | ranking function: guess strictly increases |
| C10 | trace with invocation/linearization/response events, sequential spec object | forward simulation |
| C11 | byte memory in the machine; owners may write in their regions at any time | invariant/frame argument |
| C14 C15 C20 | successes counted in the log; repr(C) offsets function in Spec | induction |
| C16 | reset step | equality of states |
| C17 C18 C19 | sequential GlobalAlloc/LocalAlloc functions with byte memory | direct + history invariant |
| C21–C23 | unsync `MemBump` functions (sequential) | refinement to the same sequential spec |
| C24 C25 C27 | header/data layout computations; heap block with arbitrary previous contents | arithmetic; **C25 and C27 are false in general: counterexample theorems and `_partial` versions** |
| C26 | `get_unchecked` | **false for unaligned levels: counterexample + `_partial`** |
| C28 C29 | `bump_array`, `bump_box`, `Alloca` | arithmetic; **zero sizes panic: counterexample + `_partial`** |
| C30–C32 | heap of links with next pointers; chain/drop | invariant: each allocated link is reachable from exactly one live chain |
| C33 C51 | ownership state machine of box handles and slots with drop log | invariant over histories; refinement to a specification in which values are moved (`Spec/Boxes`) |
| C34–C37 | ExitStack over `MemBump`, linked slots, drop with panic oracle | refinement to a stack (list); **C36 false, C37 false for over-aligned slots: counterexamples + partial** |
| C38–C43 | `Uninit` views (pointer, metadata, byte length) | arithmetic; **C38/C39 (byte splits), C41, C42 false in general: counterexamples + partial** |
| C44–C50 | FixedVec as memory + length + drop log | refinement to bounded lists; **C50 false, C47 overflow corner** |
| C52–C57 | RcBox counters with ghost multiset of handles; destructor phase for re-entrancy | invariant over histories; **C55 (re-entrancy), C57 false: counterexample + partial** |
| C58–C60 | ext methods generic over an allocator given by its contract | direct; **C59 false for ZST slices and for over-allocating allocators** |
| C61 C62 | default methods generic over contract | direct |
| C63–C66 | containers and iterators as state machines, fuel for loops | induction on fuel/room; `Lawful` specification of filling; **C65 false for Result over full containers** |
| C67 C69 | pointers with metadata and provenance tags, one borrow stack (simplified Stacked Borrows) | case analysis over all pointer kinds; **C69 false for `Pin<without_alloc::Box>`** |
| C68 | `copy_dst` over the allocator contract | direct; **false for over-aligned zero-sized values** |
| C70–C74 | `Model/ConcGlobal`: `GlobalAlloc` of the sync `Bump` on top of the machine of `Model/Bump`, any number of threads; zeroing and copying are single-byte steps; blocks owned by the program as ghost state, writes of the program as events | ownership invariant (blocks of users and of running calls are pairwise disjoint) over all schedules; rank function for C73; C74 by showing that pending accesses lie in blocks of the accessing thread |
| C75 | `Model/FixedVec` | frame relation (`Same` outside of the memory of the vector) for every operation and, by induction, for histories; C75_contents_irrelevant from the simulation with the specification of lists |
| C76 | `Model/Compare`: the methods of `PartialEq`/`PartialOrd`/`Ord`/`Hash` of the three types over arbitrary methods of the element type; the implementation for slices is that of `core` (operators derived from `partial_cmp`); methods that panic are not modelled | induction over the two lists; `Lexicographic` and `EqualLists` are stated positionally; with a linear order: Mathlib's order of lists |
| C77 | `Drain` in `Model/FixedVec` | sequences of calls from both ends against the list of items, by the simulation |
| C78 | `chainNew` in `Model/Chain` with `TryNewError` | case distinction over layout and answer of the heap, from the invariant of C30 |
| C79 | `Model/Bump` and `Model/Unsync`, the constructors being initial states with level 0 and zero memory | invariant: every byte that differs from the start lies in memory that was handed out or into which a call has stored its value; unsync: bytes behind the level are unchanged |
| C80 | programs over `Model/AllocExt` (`Model/Arena`): any order of the extension methods and of writes by the owners of the objects | invariant over the contract of `LocalAlloc`: every object with memory lies in its own live block; from the specifications C58-C60 of the methods; instance for `Bump` |
| C81 | `Model/RcMem`: the calls of `Model/Rc` on bytes, the counters being words at their offsets in the `#[repr(C)]` struct; the user writes arbitrary bytes to blocks that are his | every call agrees with that of `Model/Rc` on the records read from the bytes (`bexec_agree`), then by the simulation of C52; blocks are at fixed disjoint places |
| C82 | `Model/FixedVecBytes`: the calls of `Model/FixedVec` on bytes; reading gives whatever bytes are there, without undefined behaviour | `Sound`: what the model on values says is readable is what the bytes are; each call preserves it and writes only in the region of the vector (`exec_sound`), then by the simulation of C44; this also shows that the memory of `Model/FixedVec` (values at addresses) is a sound description of bytes |
| C83 | `Model/BumpBoxes`: programs over `Model/Unsync` and the methods of `LeakBox`, all in one byte memory that also has the level | simulation by variables without memory; invariant: variables are below the level, pairwise disjoint, and their bytes are their values; conservation by counting values |
| C84 | `Model/ChainMem`: the calls of `Model/Chain` with the field `next` as two words in the byte memory; freed memory is overwritten | simulation by `Model/Chain` (the pointers decoded from the bytes are those of the records), which is simulated by lists of slabs (`Spec/ChainMem`) |
| C85 | `Model/ExitMem`: the functions of `Model/ExitStack` with `top`, the links (address and vtable) and the values as bytes; destructors rewrite the bytes of their value and may unwind | simulation by a list of values (`Spec/ExitMem`): following the pointers finds the list; the slots stay disjoint and inside of the bump |
| C86 | `Model/Compose`: the byte models of C81 (`Rc`), C82 (`FixedVec`), C83 (boxes in a bump), C84 (`Chain`), C85 (exit stack), C91 (pieces of memory and boxes) and `MemBump::get`, each as a machine whose calls get the shared memory | each machine has a relation to its specification that depends on its own bytes only and is kept by calls, which write to own bytes only; induction over the joint program. `Local`: runs of one structure in memories which agree on its own bytes stay twins (same answers, same permitted calls), so a program is permitted iff the calls to each structure alone are (`C86_modular`, `C86_as_if_alone`). `granted_spec`: what one bump hands out is disjoint and behind its level word |
| C87 | the machine of `Model/Bump` | the linearization of C10: each allocation is placed behind the level at its linearization point, levels only grow between resets |
| C88 | `Model/ConcBoxes`: the machine of `Model/Bump`, and for each thread its boxes, references and allocations, whose values are bytes of the shared memory | simulation by variables without memory (`Spec/ConcBoxes`), driven by what is observed; regions of variables are regions handed out (C01), which steps of other threads do not write (C07); counting over the specification |
| C89 | `Model/Program`: the machine of `Model/ConcGlobal` (C70 to C74) and any family of the machines of C86, made in live blocks; a call takes a snapshot when it begins, any steps of others and any writes to its own blocks follow, then its result is written to its blocks | invariant: blocks of structures are live and apart, the relation of each machine to its specification holds of the memory (at rest) or of the snapshot (in a call); steps of the allocator do not write to live blocks of others (C70), the relations depend on owned bytes only |
| C90 | `Spec/MemoryModel`: executions as graphs (events, reads-from, modification order, happens-before) with the axioms of C++20 for one atomic object, once for `SeqCst` and once for any ordering; `Model/BumpLocal`: the code as one thread executes it, without a memory | the relations of an execution are acyclic, hence there is a total order of the events that contains them; by induction along it the machine of `Model/Bump` makes the same actions (forward simulation), then C01 and C10. Conversely the graph of a run satisfies the axioms |
| C91 | `Model/BoxMem`: programs over `Uninit` (all casts and splits of `Model/Uninit`) and `without_alloc::Box`, values are bytes of one memory | simulation by variables without memory (`Spec/BoxMem`); invariant: variables are disjoint, aligned and their bytes are their values; counting over the specification. Violated by the code because of `split_at_byte` (C39): a counterexample without `unsafe` is proved, the theorems are for programs that use `split_at_byte`/`split_to_fit` only where these do what is documented |
| C92 | the programs of C88 (threads with boxes in one shared bump) and C83 (boxes in an `unsync` bump); `Spec/Pinned`: what can be done with a box after `into_pin` | frame lemma per event on top of the relation of C88/C83, induction over the program after the pin; the bound `'static` is shown to be needed by a concrete program without it |
| C93 | `Model/GlobalLocal`: the methods of the global allocator as one thread executes them, without a memory, with all accesses to bytes; graphs as for C90; `Spec/GlobalRaces`: the contract for the program, races | the actions on the bump alone are again a graph of C90 (projection), so grants are disjoint; invariant over the actions of a thread: every access of a call is to memory granted in it or to the block it takes; induction along happens-before: every block comes from one grant through a chain of `realloc`s in place, whose owners are totally ordered |
| C94 | as C93; `Spec/GlobalContents`: reads see a visible side effect; what a block holds, in terms of the actions of the program alone | invariant over the actions of a thread: a call that returns has written each byte once (zero, or what it has read from the old block); induction over what a block holds: there is a last write to the byte, all others are ordered before it by the chain of owners of C93 |
| C95 | as C93 and C94; `Spec/GlobalInterleaving`: sequential consistency; how an execution is carried out by the machine of `Model/ConcGlobal`, that is what relates the two models | a total order that extends happens-before, modification order, reads-from and from-reads exists (as for C90); forward simulation along it: after every prefix the machine has the positions of all threads, the last written level, the last written bytes, and the blocks not taken yet; a byte between its read and its write by `realloc` is not written by others, by C93. Conversely (`C95_complete`) the execution is built from a run of the machine, one action after the other: every owned block is kept with the return that gave it, the last write of `consumed` and of every byte is known, happens-before is the order of time; for a weaker happens-before, C93 tells that accesses which conflict are ordered, so reads see the same writes |
| C96 | `Model/Linked`: memory with the bits of values at addresses, boxes are addresses inside of values, destructors that follow them, on the sequential allocation of `Model/BumpGlobal`; `Spec/Linked`: values are trees, no memory | refinement: every tree is laid out at distinct addresses below the level; a change at a path changes one cell; drop glue visits the tree in preorder (mutual induction on trees and lists of trees); counting: held, destroyed, forgotten and lost values are a permutation of those made |
| C97 | `Model/Shared`: blocks with the counters of `Model/Rc` and the bits of values, which contain numbers of blocks; recursive destructors; on the sequential allocation of `Model/BumpGlobal`. `Spec/Shared`: the graph of values, without counters; a value is destroyed when the last strong pointer among all is dropped | refinement: the counters are the numbers of pointers (multiset of variables, fields of existing values, forgotten and pending ones); the recursion of destructors is a worklist in the specification, its depth is bounded by the number of existing values (induction on it) and the steps by the number of pointers; unreachable values have unreachable predecessors, so on a finite graph there is a cycle (well-foundedness); without strong pointers into shared values block numbers decrease along pointers |
| C98 | `Model/Nested`: values whose bits contain a `FixedVec` of such values, in the memory of `Model/FixedVec` (a write destroys what it overlaps), with its `push`, `pop`, `drain`, `split_and_shrink_to`, and with `truncate`, `Drop for Drain` and `Drop for FixedVec` written out because these run nested destructors; vectors come from `fixed_vec` on the sequential `Bump`. `Spec/Nested`: values are trees with capacities, no memory | refinement: every tree is laid out with the regions of all vectors disjoint and below the level; `focus`: a change of the value at a path is one store that keeps every other region; drop glue visits in preorder, its recursion is bounded by the number of values made; conservation of identities by counting |
| C99 | `Model/Dtor`: as C97, but a destructor is a sequence of operations of the program, between the one that begins it and `endDrop`: a stack of calls of `drop_in_place`, whose drop glue reads the fields from the memory of the block one at a time. `Spec/Dtor`: the graph, without counters, and the list of pointers that are left to be dropped in each value that is being destroyed | refinement as for C97; additionally for each frame of the stack: the bits in the block are those of the specification from the current field on, and no operation writes the block of a value that is being destroyed, which needs that `Weak::try_unwrap` is not called for it. **Violated** without this (`C99_violated`) |
| C100 | `Model/Mixed`: `LeakBox` (`leaked.rs`), `Rc` and `Weak` (`rc.rs`) from one `Bump`, blocks are bits of a value or an `RcBox`; values with all three kinds of pointers, reached by paths; destructors as for C99. `Spec/Mixed`: the graph, without counters and addresses | refinement as for C99 (one invariant for each block: number of pointers of each kind, counters, bits of the value). Boxes: there is one place with the `LeakBox` of a block, so what is in a box can be reached only through it, so it is never moved into itself; new edges without a way back keep a relation acyclic. Leaks: finite pigeonhole, then the cycle has an edge that is not a box |
| C101 | `Model/FillDrops`: the functions of `Model/Fill` with the destructors they run (the old value in an assignment, the rest of `once` in `Result`), which may unwind or abort | conservation as a permutation of lists of values, by induction over the loops and by closure under `Result`; for slices an inductive description of what is overwritten and destroyed; agreement with `Model/Fill` where no destructor panics |
| C102 | `Model/ExitNest`: several exit stacks (each with a memory of its own, see C85 and C86 for one memory); clearing is a loop that is suspended while a destructor runs, which is code of the user that uses any stack that is not being cleared. `Spec/ExitNest`: stacks are lists of values (address, number, bytes), no memory and no links | refinement: for a stack that is being cleared the state before (with the invariant of C34–C36) is a ghost, of whose linked list a prefix is done. Conservation (count in stack + waiting + begun + lost = 1) and order by an invariant of the specification. With destructors that do nothing it is the model of C34 (`C102_agrees`) |
| C103 | `Spec/Borrows`: Stacked Borrows per byte (without protectors). `Model/VecBorrows`: `FixedVec` as the accesses and retags its methods make, with the tags of the pointers used; a program keeps references (which the borrow checker lets it use) and raw pointers. `Spec/VecBorrows`: what the borrow checker accepts | tags in each stack decrease from top to bottom, the tag of the `Uninit` is in all stacks, the tag of each usable reference in the stacks of its bytes; vectors that can be used are disjoint. An access keeps all items with tags up to its own |
| C104 | `Spec/Borrows` also has the retag of `&UnsafeCell` (no access, the new item next to the granting one). `Model/BumpBorrows`: the methods of the sync `Bump`, of `Allocation` and `LeakBox` as the retags and accesses they make, on the placement computed by `Model/BumpGlobal`. `Spec/BumpBorrows`: `Permitted` — what the borrow checker accepts. | Every stack of the object is (references, sorted by age) ++ (shared-mutable items: all `&Bump` and allocation pointers) ++ (owner): `Proofs/BorrowsCol` has the effect of each kind of access on this shape; allocations never overlap, so an access by the pointer of one pops references of that one only. Invariant by induction over programs. |
| C105 | `Model/RcBorrows`: the methods of `Rc` and `Weak` as the retags and accesses they make: `Rc` makes `&RcBox` (the value shared read-only, the counters in `UnsafeCell`s), `Weak` only `&Cell`. `Spec/Borrows` has this mixed retag. `Spec/RcBorrows`: `Permitted` — what the borrow checker accepts. | Violated if the destructor of the value calls `Weak::try_unwrap` (`Drop for Rc` gives up its weak count before it runs the destructor): concrete program. For all other programs: every stack of the value is (references of handles) ++ (owner), that of a counter (shared-mutable) ++ (owner), `Proofs/BorrowsMem`; the counters count the handles, `Proofs/RcBorrowsCount`, so `get_mut` and the destructor pop references of no other handle. Invariant by induction over programs. |
| C106 | `Model/ExitMove`: the model of C85 (exit stack in the bytes of memory) with an operation that copies the bytes of the stack to another place; permitted by the language at any time if `Mem: Unpin`, otherwise before the first `Pin` of it is made (the type has no `PhantomPinned`). | Violated if `Mem: Unpin` (every use in the tests): concrete program that pins, moves and drops. Otherwise refinement to a list of values as for C85: a stack without values satisfies the invariant of C85 at the new place; `used = false` implies that there is none. |
| C107 | `Model/ExitBorrows`: the methods of `ExitStack` as sequences of the actions of C104 on its `Bump`, with the tags of the handles in the list; destructors make a `&mut` to the value and access its bytes by it, in any way. `&mut` to an `Unpin` type is unique, to others not. `Spec/ExitBorrows`: `Allowed` — what the borrow checker accepts; `Permitted` — without clearing an `Unpin` stack that has values. | Violated for `Mem: Unpin`: concrete program of two values and `pop_all`, and for every state of every program with a value: after the `&mut self`, no tag of the list is in any stack. Otherwise invariant: that of C104, and each slot and handle is a root: it is in the references of the program, mutable, made from no other, and every other reference to the same allocation is made from it (so that no use of those ends it); owners are different. |

No property of the list had to be given up as inexpressible (`not_applicable`).

A property that the code violates keeps its full statement in `properties.jsonl`; its status is `partial`. There is then (1) a theorem with the suffix
`_partial` for the part that holds, and (2) a theorem named `C.._violated...` (or similar, see the note in the manifest) which
exhibits a concrete execution of the model that contradicts the property.

## Trusted base

* Lean 4.33.0's kernel. No axioms are added; every theorem depends at most on `propext`, `Classical.choice`, `Quot.sound`
  (many on fewer; per theorem: `AXIOMS.md`). No `native_decide`, `bv_decide`, or admitted proofs. Concrete runs are evaluated by the kernel (`decide +kernel`, `rfl`, `simp`).
* Of Mathlib only the modules imported one by one at the head of the files are used (tactics and list/order lemmas).
* That the model mirrors the Rust code. Every definition in `Verif/Model` cites the lines it models; simplifications are stated there and below.
* The model of the language and of `core` (`Verif/Model/Rust.lean`, `Verif/Spec/Basic.lean`): target widths, layouts, `Layout::{array,extend,pad_to_align,from_size_align}`,
  `align_offset`, checked/wrapping arithmetic, order of drops, unwinding; and of the environment (heap returns disjoint aligned memory, iterators
  and destructors are arbitrary but do not break the language's rules).

### What is modelled

| file | modelled | not modelled |
|------|----------|--------------|
| static-alloc/src/bump.rs | all of `Bump`, `Allocation`, `LeakError`, `GlobalAlloc`, `LocalAlloc` (`Model/Bump`, `Model/BumpGlobal`; the global allocator under concurrency in `Model/ConcGlobal`; threads keeping values in a shared bump through `leak_box` in `Model/ConcBoxes`; aliasing of its pointers and those of `LeakBox` in `Model/BumpBorrows`) | derived traits, docs; memory orderings are modelled in `Spec/MemoryModel`, `Model/BumpLocal` (C90) and `Model/GlobalLocal` (C93 to C95) |
| static-alloc/src/leaked.rs | `Alloca` (`Model/Alloca`), `LeakBox` (`Model/LeakBox`, `Model/ConcBoxes`; boxes in values in boxes `Model/Linked`, with `Rc` and re-entrant destructors `Model/Mixed`) | formatting/hash forwards, lifetimes (`into_pin` is the identity on the pointer, what follows from its `'static` bound is C92) |
| static-alloc/src/unsync/bump.rs | everything (`Model/Unsync`) | – |
| static-alloc/src/unsync/chain.rs | everything (`Model/Chain`, on bytes `Model/ChainMem`) | – |
| static-alloc/src/inline_vec.rs | – | not part of the crate: no `mod` declaration, does not compile |
| exit-stack/src/lib.rs | everything (`Model/ExitStack`, on bytes `Model/ExitMem`, with destructors that use other stacks `Model/ExitNest`, moving the stack `Model/ExitMove`, aliasing of its pointers `Model/ExitBorrows`) but `AbortOnDrop`, of which only the effect (abort) is modelled | use of a stack by the destructors of its own values (excluded by `&mut`/`Pin`) |
| without-alloc/src/uninit.rs | all geometry: views, casts, splits, slices, conversions (`Model/Uninit`) | formatting |
| without-alloc/src/boxed.rs | ownership (`Model/WBox`), on the bytes of the memory (`Model/BoxMem`), unsizing (`Model/Unsize`), comparison and hash (`Model/Compare`) | formatting |
| without-alloc/src/fixed_vec.rs | all operations (`Model/FixedVec`; on bytes in `Model/FixedVecBytes`; vectors of values that contain vectors in `Model/Nested`; aliasing of its pointers in `Model/VecBorrows`), comparison and hash (`Model/Compare`) | formatting; `set_len` is modelled together with the writes of the user that it needs (the documented safety conditions are its `Permitted` case) |
| without-alloc/src/rc.rs | all operations and the memory layout (`Model/Rc`; on bytes in `Model/RcMem`; values that contain pointers in `Model/Shared`, destructors that use them in `Model/Dtor`, and together with `LeakBox` in `Model/Mixed`; aliasing of its pointers in `Model/RcBorrows`), comparison and hash (`Model/Compare`) | formatting |
| without-alloc/src/alloc.rs | all provided methods (`Model/AllocExt`) | – |
| alloc-traits/src/{layout,local,util}.rs | `NonZeroLayout`, trait methods and defaults (`Model/AllocTraits`) | lifetimes (`AllocTime`) |
| fill/src/fill.rs | trait `Fill`, provided methods, all impls (`Model/Fill`, with destructors `Model/FillDrops`) | `IntoIterator::into_iter` itself |
| unsize/src/* | `CoerciblePtr` for every kind, `unsize`, `unsize_with`, coercions (`Model/Unsize`) | derived-like traits of `Coercion` |
| examples, benches, fuzz targets, tests | – | not library code |

### Abstractions to keep in mind

* Values are byte lists (allocator models) or abstract identities with a destructor log (ownership models).
* Lifetimes and the borrow checker appear as preconditions (`Allowed`, `Applies`) of the operations: what safe Rust (and the documented safety
  sections of unsafe functions) permits. They are part of the statement of the theorems that quantify over histories.
* In the concurrent machine one step contains at most one access to shared memory. As the only shared word is an atomic, interleavings of these steps are
  all executions of the counter (proved: `C90_interleaving`, `C90_complete`); the values are written non-atomically, in regions that only one thread can access (C01, C11).
* The provenance model of `unsize` (C69) is a simplification of Stacked Borrows with one stack; C103, C104, C105 and C107 use the rules per byte, without protectors.

## Mutation testing

`seeded/LOG.jsonl` has one line per wrong program tried: the definition edited, the edit, the claim it breaks, which theorems then fail, and which theorems were tightened because of it.
The harness elaborates the mutated module and all modules depending on it, keeps going after failed proofs, and lists every property theorem that
depends on a failed proof.
