#!/usr/bin/env python3
"""Writes /verif/properties.jsonl (kept as a script so that the list can be edited readably)."""
import json, os
P = []
def p(id, title, statement, quantifier, why, anchors):
    P.append(dict(id=id, title=title, statement=statement, quantifier=quantifier,
                  why_tests_cant=why, anchors=anchors))
SB = "static-alloc/src/bump.rs"
UB = "static-alloc/src/unsync/bump.rs"
UC = "static-alloc/src/unsync/chain.rs"
LK = "static-alloc/src/leaked.rs"
UN = "without-alloc/src/uninit.rs"
FV = "without-alloc/src/fixed_vec.rs"
RC = "without-alloc/src/rc.rs"
BX = "without-alloc/src/boxed.rs"
AL = "without-alloc/src/alloc.rs"
ES = "exit-stack/src/lib.rs"
FI = "fill/src/fill.rs"
US = "unsize/src/lib.rs"

# ------------------------------------------------------------------ sync Bump
p("C01", "Concurrent allocations never overlap",
  "Any two non-zero-sized allocations handed out by one shared `Bump` (through alloc, alloc_at, get_layout, get_layout_at, get, get_at, leak, leak_at, leak_box, leak_box_at) without a `reset` between them occupy disjoint byte ranges, even when one of the calls has taken its range but not yet returned.",
  "all slab sizes and addresses, all numbers of threads, all sequences of calls and arguments per thread, all interleavings of their shared-memory accesses",
  "A test runs a handful of the interleavings; overlap would need one particular race between a level observation and the compare-exchange.",
  [SB+":try_alloc", SB+":try_alloc_at", SB+":bump", SB+":Sync for Bump"])
p("C02", "Every allocation is in bounds, aligned and large enough",
  "Every successful allocation returns a non-null pointer that is a multiple of the requested alignment, and the requested number of bytes starting there lies completely inside the slab's storage, for alignments smaller and larger than the slab's own.",
  "all slab sizes/base addresses, all layouts (any power-of-two alignment), all call histories and interleavings",
  "The padding depends on the runtime address of the slab; tests see only the addresses their run happens to get.",
  [SB+":try_alloc_at"])
p("C03", "Calls panic exactly for zero-sized raw layouts and foreign levels",
  "A call panics if and only if it is given a zero-sized layout through the raw-layout interface, or a level larger than the slab together with a layout of non-zero size; none of the internal assertions or unwraps can fire otherwise, for any interleaving, and a call that panics changes neither the level nor any memory.",
  "all layouts, levels, addresses, slab states and interleavings",
  "The internal assertions relate wrapped address arithmetic to bounds; a test cannot visit all addresses and levels.",
  [SB+":try_alloc_at", SB+":bump", SB+":for_zst"])
p("C04", "The level only grows and never exceeds the slab",
  "While the slab is shared, all observed levels (from `level()`, from successful allocations and from Mismatch failures) form a non-decreasing sequence in real time, across all threads, and none exceeds the slab size.",
  "all histories and interleavings without an exclusive reset",
  "Monotonicity is a statement about all pairs of observations of all schedules.",
  [SB+":level", SB+":bump", SB+":Failure::Mismatch"])
p("C05", "Allocation at a level is exact",
  "`alloc_at`/`get_at`/`leak_at` with level L succeeds only if the slab's level is exactly L at that instant; then the allocation starts at the first address at or after base+L with the requested alignment, the returned level is the end of that allocation, and the slab's level becomes exactly that. If it fails with Mismatch the reported level differs from L and was the true level, and nothing changed.",
  "all levels, layouts, slab states, interleavings",
  "It is an atomicity claim; another thread may allocate between any two instructions.",
  [SB+":alloc_at", SB+":get_layout_at", SB+":get_at", SB+":try_alloc_at"])
p("C06", "Out-of-memory answers are truthful and permanent",
  "When an allocation reports exhaustion, the request really does not fit behind the level of the slab at the moment of the answer, and the same request can never succeed later until the slab is reset; this holds although the implementation computes the answer from a possibly stale level (starting with the guess 0). For alloc_at the same holds if the given level was obtained from this slab.",
  "all layouts, stale guesses, interleavings and continuations",
  "The answer is computed from a stale snapshot; correctness needs a monotonicity argument over every future.",
  [SB+":try_alloc", SB+":try_alloc_at"])
p("C07", "An allocation that fits succeeds",
  "If a thread runs `alloc`/`get`/`leak` without interference and the request fits behind the current level, the call succeeds, placing the value at the first suitably aligned address; if it does not fit it reports exhaustion. (No spurious failures.)",
  "all slab states, layouts and addresses",
  "Requires reasoning about all address residues and levels.",
  [SB+":try_alloc", SB+":alloc", SB+":get"])
p("C08", "Allocation is wait-free",
  "Every call finishes within a number of its own steps bounded by a linear function of the slab size, whatever the other threads do and however they are scheduled; the retry loop cannot run forever.",
  "all schedules, including adversarial and infinite ones",
  "Tests cannot establish termination under every scheduler.",
  [SB+":try_alloc"])
p("C09", "A retry means another thread made progress",
  "An allocation attempt with the current level guess is only repeated because the level was changed by another successful allocation: between two attempts of one call, the level of the slab differs from the previous guess. So in every run, failed attempts are bounded by a constant per call plus successful allocations of others.",
  "all schedules",
  "Statement about all interleavings.",
  [SB+":try_alloc", SB+":bump"])
p("C10", "The shared slab is linearizable",
  "Every concurrent history of calls to one `Bump` is linearizable with respect to the sequential bump-pointer specification (one number, the level): each call appears to take effect at one instant between its invocation and its response, with the result of the sequential specification.",
  "all numbers of threads, call sequences and interleavings",
  "Linearizability quantifies over all concurrent histories.",
  [SB+":Bump", SB+":try_alloc", SB+":level", SB+":get_at"])
p("C11", "Leaked values and allocated bytes are isolated",
  "The bytes of an allocation change only by writes of the owner of that allocation: a value placed with leak/leak_at/leak_box keeps its bytes no matter which calls, writes to other allocations and failures happen concurrently on the same slab.",
  "all values, sizes, histories, interleavings of calls and of writes into owned allocations",
  "Needs disjointness for all pairs of writes in all schedules.",
  [SB+":leak", SB+":leak_at", SB+":Allocation::leak", SB+":Sync for Bump"])
p("C12", "A failed leak gives the value back",
  "If `leak`/`leak_at` fails, the error contains the unchanged value and the true failure kind, no memory has been written and the slab's level was not changed by the call.",
  "all values, layouts, levels, slab states, interleavings",
  "Requires all failure paths under all schedules.",
  [SB+":leak", SB+":leak_at", SB+":LeakError"])
p("C13", "Zero-sized types never consume memory",
  "`get`/`leak` of a zero-sized type always succeed with a suitably aligned non-null pointer and never change the level, even on a full or zero-sized slab; `get_at`/`leak_at` of a zero-sized type succeed exactly if the given level equals the level observed, otherwise report that observed level, and never panic even for foreign levels.",
  "all zero-sized types (alignments), all slab states, levels and interleavings",
  "All alignments/levels/schedules.",
  [SB+":get", SB+":get_at", SB+":zst_fake_alloc", SB+":for_zst"])
p("C14", "A slab of n values holds exactly n values",
  "A fresh `Bump<[V; n]>` (V not zero-sized) serves `V`-sized requests exactly n times, for any distribution of the requests on threads and any schedule: the number of successes never exceeds n, and a request only fails after n successes have been granted.",
  "all n, all sizes/alignments of V, all base addresses aligned for V, all schedules",
  "All n and all schedules.",
  [SB+":Bump", SB+":leak", SB+":get"])
p("C15", "Chained levels lay values out like a repr(C) struct",
  "Starting from a level L on a slab, consecutive `leak_at`/`get_at` calls passing on the returned level place the values at consecutive offsets of the repr(C) layout algorithm (each field at the next multiple of its alignment), provided base+L is aligned to the largest of the alignments; in particular equal-typed values are contiguous as array elements.",
  "all lists of layouts, all base addresses and levels, arbitrary interference by other threads (which can only cause failure)",
  "All lists of layouts.",
  [SB+":leak_at", SB+":Level"])
p("C16", "reset makes the slab as good as new without touching bytes",
  "After `reset` (which needs exclusive access) the level is 0, the slab answers every continuation exactly like a fresh slab at the same address, and the stored bytes are unchanged.",
  "all prior histories and all continuations",
  "Quantifies over all histories before and after.",
  [SB+":reset"])
p("C17", "Reallocation preserves contents",
  "`LocalAlloc::realloc`/`GlobalAlloc::realloc` on a live allocation yields memory that satisfies the new layout, whose first min(old,new) bytes equal the old contents, which is either the same allocation or disjoint from every live allocation; other live allocations keep their bytes; on failure (None/null) the old allocation stays valid with unchanged bytes.",
  "all layouts old/new, all slab states and memory contents",
  "All pairs of layouts, addresses and contents.",
  [SB+":LocalAlloc::realloc", SB+":GlobalAlloc::realloc", SB+":layout_reallocated"])
p("C18", "The global-allocator interface never hands out the same memory twice",
  "For every sequence of alloc, dealloc, alloc_zeroed and realloc calls through `GlobalAlloc`, returned non-null pointers are aligned and in bounds, null is returned exactly if the request does not fit (or the new layout is invalid), blocks live at the same time are disjoint, and dealloc changes nothing observable.",
  "all call histories conforming to the GlobalAlloc contract",
  "All histories.",
  [SB+":GlobalAlloc for Bump"])
p("C19", "Zeroed allocation is zeroed",
  "`alloc_zeroed` returns memory in which all bytes of the requested size are 0 (also after a reset when the storage holds old data), and changes no byte outside of the returned block.",
  "all layouts, slab states, prior memory contents",
  "All contents/addresses.",
  ["alloc-traits/src/util.rs", "alloc-traits/src/local.rs:alloc_zeroed", SB+":GlobalAlloc for Bump"])
p("C20", "Consumption is exactly sizes plus alignment padding",
  "The level of a slab equals its starting level plus, for all allocations handed out since, the sizes plus paddings each smaller than the requested alignment; failed calls, ZST calls and observations consume nothing. Hence all requests succeed whose worst-case sizes (size+align-1) sum to at most the remaining capacity.",
  "all histories, interleavings, layouts",
  "All histories.",
  [SB+":try_alloc_at", SB+":bump"])

# ------------------------------------------------------------- unsync bump
p("C21", "Unsync bump: allocations are disjoint, in bounds, aligned",
  "For every sequence of operations on an unsync `MemBump` (alloc, alloc_at, get, get_at, bump_box, bump_array, level) all handed out non-empty regions since the last reset are pairwise disjoint, inside the data region and aligned, and the level is non-decreasing and at most the capacity.",
  "all capacities, addresses, operation sequences and layouts",
  "All histories and addresses.",
  [UB+":try_alloc_at", UB+":bump", UB+":alloc", UB+":get_at"])
p("C22", "Unsync bump: panics are exactly the documented ones",
  "An unsync allocation call panics if and only if the layout is zero-sized (this includes the typed `get`, `get_at`, `bump_box` with zero-sized types, contrary to the sync variant) or the given level exceeds the capacity; in particular the `unreachable!` in the retry-free path and all unwraps are unreachable.",
  "all layouts, levels, states",
  "All states.",
  [UB+":try_alloc", UB+":try_alloc_at"])
p("C23", "Unsync bump agrees with the sequential bump-pointer specification",
  "Each unsync operation returns exactly what the sequential specification of a bump pointer returns, in particular it succeeds iff the request fits behind the level, and allocation at a level fails with Mismatch iff the request fits behind the given level but the level is not current. A sync Bump used by one thread and an unsync bump at the same address behave identically on non-zero-sized layouts.",
  "all states, layouts, levels, operation sequences",
  "All histories.",
  [UB+":try_alloc", UB+":try_alloc_at", SB+":try_alloc"])
p("C24", "Borrowed memory can be used in full and recovered",
  "`MemBump::from_mem` succeeds exactly if the given bytes contain a suitably aligned place for the header (whatever their alignment and contents), the resulting bump starts empty at the first aligned address, its header and data lie completely in the given bytes with fewer than one header alignment of trailing bytes unused, and `into_mem` gives exactly the bytes of header and data back, from which `from_mem_unchecked` recovers the same bump with the same level.",
  "all addresses and lengths of the byte slice",
  "All addresses/lengths.",
  [UB+":from_mem", UB+":from_mem_unchecked", UB+":from_aligned_mem", UB+":into_mem", UB+":layout_from_size"])
p("C25", "A new heap bump starts empty",
  "A `MemBump` made by `MemBump::new(size)` has level 0 and capacity of at least `size`, whatever the heap memory contained before.",
  "all sizes and all prior contents of the heap block",
  "Depends on the previous contents of recycled heap memory, which a test rarely controls.",
  [UB+":MemBump::new"])
p("C26", "get_unchecked reacquires the earlier allocation",
  "If `get_at::<V>(level)` succeeded before, then `get_unchecked::<V>(level)` returns the same address again (as documented: it reacquires the allocation), so an aligned pointer in bounds, and neither changes the level nor invalidates other allocations.",
  "all levels, types and addresses meeting the precondition",
  "All addresses and levels.",
  [UB+":get_unchecked"])
p("C27", "A typed unsync Bump provides its advertised capacity",
  "A `Bump<T>` used through its dereference to `MemBump` provides exactly size_of T bytes, at a data region aligned for T and inside of the Bump object, so that a `T` can be allocated in it.",
  "all T (sizes and alignments), all targets (pointer widths)",
  "Depends on target and over-aligned types.",
  [UB+":Bump", UB+":Deref for Bump", UB+":layout_from_size"])
p("C28", "Array and box allocation in the unsync bump",
  "`bump_array::<T>(n)` gives a region of exactly n*size_of T bytes aligned for T if that fits (and never an overflown shorter one), otherwise Exhausted; `bump_box` allocates at the current level and never fails with Mismatch; neither panics.",
  "all n up to usize::MAX, all element layouts, all states",
  "Overflow corner cases over all n.",
  [UB+":bump_array", UB+":bump_box"])
p("C29", "Alloca always provides the requested slice",
  "`Alloca::new(len)` followed by `run` calls the closure with a slice of exactly `len` properly aligned elements in memory of the call frame (an object less than twice as large as needed, or of one word), for every len whose padded size is at most the largest supported stack size, and otherwise reports an error/panics before the closure runs.",
  "all lengths, all element layouts, all stack addresses",
  "The frame address varies between runs; all lengths and alignments.",
  [LK+":Alloca::new", LK+":Alloca::run", LK+":Alloca::run_with", LK+":padded_layout"])
# ------------------------------------------------------------------ chain
p("C30", "Chains free every link exactly once",
  "For every sequence of Chain constructions, `chain` splices and drops, every heap link is freed exactly once, with the same layout it was allocated with, no link is used after being freed, and when all chains are dropped no link remains allocated (no leak), with no recursion proportional to the length.",
  "all histories of chain operations, all lengths of chains",
  "All histories and lengths.",
  [UC+":Chain::new", UC+":chain", UC+":Drop for Chain", UC+":Drop for Link", UC+":Link::set_next"])
p("C31", "Allocations from a chain are disjoint and keep valid when chains are joined",
  "Values allocated by `bump_box` from any link of a chain live in the memory of that link, pairwise disjoint and aligned; joining chains neither moves nor frees the links reachable from the joined result, and allocation continues in the new front.",
  "all histories of allocation and joining",
  "All histories.",
  [UC+":bump_box", UC+":chain"])
p("C32", "Chain capacities are those of the front link",
  "`capacity` and `remaining_capacity` of a chain: documented as the total, they return the capacity/remaining of the front link only; the remaining capacity never exceeds the capacity and decreases by at least the size of every value allocated.",
  "all chains and histories",
  "All histories.",
  [UC+":capacity", UC+":remaining_capacity"])
# ------------------------------------------------------------------ leakbox
p("C33", "LeakBox drops its value exactly once",
  "For every sequence of operations on LeakBoxes (create, deref, write, take, into_raw, from_raw, leak, from_mut, assume_init, drop) each value moved into a LeakBox is, after all handles are gone, either dropped exactly once, or moved out exactly once (take), or explicitly leaked (leak/into_raw), never dropped twice and never dropped while still readable through a handle.",
  "all operation sequences and values",
  "All histories.",
  [LK+":LeakBox", LK+":LeakBox::take", LK+":LeakBox::leak", LK+":Drop for LeakBox", LK+":LeakBox::into_raw"])
# ------------------------------------------------------------------ exit stack
p("C34", "Exit stack drops values exactly once in reverse order",
  "For every history of set/slot+pin/pin_local/pop_all and final drop of an ExitStack in which no destructor panics, every value set is dropped exactly once, in the reverse order of being set, at pop_all or when the stack is dropped.",
  "all histories of pushes and pops, any number of values",
  "All histories.",
  [ES+":ExitStack::set", ES+":pop_all", ES+":inner", ES+":Drop for ExitStack"])
p("C35", "A pinned value's memory is not reused before its destructor ran",
  "Slots of values that have not been dropped are never handed out or overwritten again (the pin guarantee), across slot, set, pop_all and drop; stale data of dropped values is never accessed.",
  "all histories",
  "All histories.",
  [ES+":slot", ES+":set", ES+":pin", ES+":pop_all"])
p("C36", "A panicking destructor does not lose the remaining values",
  "When the destructor of a value in an ExitStack panics while the stack is being unwound, the destructors of all remaining values still run before their memory is released (documented intent of the unwind flag).",
  "all stacks and all sets of panicking destructors",
  "All panic positions.",
  [ES+":inner", ES+":pop_all"])
p("C37", "set on a fresh exit stack never fails",
  "`ExitStack::set` never panics: since it clears the stack first there is always room for the slot, for every slot type and target.",
  "all slot types (sizes/alignments), all targets, all histories",
  "All alignments and targets.",
  [ES+":set", ES+":slot"])
# ------------------------------------------------------------------ uninit
p("C38", "Uninit views stay within their memory",
  "Starting from an Uninit over some memory, every view derived by any chain of cast, cast_slice, split_at, split_first, split_last, split_at_byte, split_layout, split_to_fit, split_cast, split_slice, shrink_to_fit covers only bytes of the original memory.",
  "all addresses, lengths, element layouts and derivation sequences",
  "All derivations and layouts.",
  [UN+":Uninit", UN+":UninitView"])
p("C39", "Splitting yields disjoint parts that together are the whole",
  "`split_at(i)` on a slice view succeeds iff i <= capacity, then the front holds exactly i elements, and front and back are disjoint, adjacent and together cover the same bytes; same for split_first, split_last; `split_at_byte(n)` does this for bytes.",
  "all positions (up to usize::MAX), all element layouts and lengths",
  "All positions/layouts incl. overflow.",
  [UN+":split_at", UN+":split_at_byte", UN+":split_first", UN+":split_last"])
p("C40", "A view only grants writes of types that fit",
  "`cast::<U>` succeeds exactly if the region is aligned and large enough for a U, and returns the region at the same address; `cast_slice::<U>` exactly if aligned, and has capacity floor(len/size); on failure the original view is handed back unchanged.",
  "all regions, all types",
  "All addresses/layouts.",
  [UN+":cast", UN+":cast_slice", UN+":fits", UN+":capacity"])
p("C41", "split_layout/split_cast carve out an aligned sub-region when one fits",
  "`split_layout(l)` on a view with enough room for layout l after aligning returns an aligned sub-region and leaves the rest in place; it fails only if there is not enough room.",
  "all addresses, lengths and layouts",
  "All address residues.",
  [UN+":split_layout", UN+":split_cast", UN+":split_slice"])
p("C42", "The slice seen through a view matches its capacity",
  "For a slice view, the slice pointer/references it gives out (as_ptr, as_mut_ptr, into_mut, as_ref) never cover more elements than its capacity, also after splitting.",
  "all derivation sequences",
  "All derivation sequences.",
  [UN+":split_at", UN+":as_ptr", UN+":into_mut", UN+":shrink_to_fit"])
p("C43", "Conversion between Uninit and MaybeUninit is lossless",
  "from_maybe_uninit/into_maybe_uninit(_slice), from_memory and casts keep address and extent; converting back and forth gives the same region; shrink_to_fit removes only the bytes not usable for the type and is idempotent.",
  "all types, addresses and lengths",
  "All layouts.",
  [UN+":from_maybe_uninit", UN+":into_maybe_uninit", UN+":shrink_to_fit"])
# ------------------------------------------------------------------ fixed vec
p("C44", "FixedVec behaves like a bounded list",
  "Every sequence of push, pop, truncate, clear, fill, extend, indexing, drain, split and (within its safety conditions) set_len operations on a FixedVec returns what the same sequence on a mathematical list of bounded length returns; push fails exactly if len == capacity and then returns the value unchanged.",
  "all operation sequences, element types (also zero-sized), capacities",
  "All histories.",
  [FV+":push", FV+":pop", FV+":truncate", FV+":fill", FV+":drain", FV+":set_len"])
p("C45", "FixedVec drops each element exactly once",
  "Every element moved into a FixedVec is either handed out exactly once (pop, drain) or dropped exactly once (truncate, clear, dropping the vector or drain, split), never both, never twice, and never lost when no destructor panics.",
  "all operation sequences, all panicking-free destructors",
  "All histories.",
  [FV+":truncate", FV+":Drop for FixedVec", FV+":Drop for Drain"])
p("C46", "FixedVec is panic safe",
  "If the destructor of an element panics during truncate/clear, or during the drop, no element is dropped twice and the vector afterwards contains exactly a prefix of initialised elements.",
  "all vectors, truncation lengths and sets of elements with panicking destructors",
  "All panic positions.",
  [FV+":truncate", FV+":SetLenOnDrop"])
p("C47", "Drain removes exactly the range",
  "`drain(range)` yields exactly the elements of the range, in order from both ends, and after the drain is dropped at any point of iteration the vector contains the elements before and after the range in order; the not yielded elements of the range are dropped once; it panics exactly if the range is out of bounds; if the drain is forgotten the vector holds only the elements before the range; the sizes that the drain reports are exact.",
  "all vectors, ranges (all bound kinds) and numbers of next/next_back calls",
  "All ranges/interleavings of next and next_back.",
  [FV+":drain", FV+":Drain::next", FV+":Drain::next_back", FV+":Drop for Drain"])
p("C48", "Splitting a FixedVec's capacity",
  "`split_borrowed`, `split_and_shrink_to` and `shrink_to_fit` keep all elements in place, and the spare memory they return is disjoint from the memory of the elements and the vector can still hold exactly the stated capacity.",
  "all lengths/capacities, element layouts",
  "All layouts.",
  [FV+":split_borrowed", FV+":split_and_shrink_to", FV+":shrink_to_fit"])
p("C49", "fill takes exactly as many items as fit",
  "`FixedVec::fill(iter)` appends items of the iterator in order until full or the iterator ends; it does not take an item from the iterator that it cannot store, and returns the remaining iterator; Extend panics rather than dropping items silently.",
  "all iterators (also infinite), capacities",
  "All iterators.",
  [FV+":fill", FV+":Extend for FixedVec"])
p("C50", "A FixedVec over unaligned memory uses it",
  "`FixedVec::from_unaligned(region)` gives a vector with room for every element that can be placed aligned in the region, at addresses inside the region.",
  "all addresses, lengths, element layouts",
  "All address residues.",
  [FV+":from_unaligned"])
# ------------------------------------------------------------------ box, rc
p("C51", "Box over borrowed memory drops once",
  "For each sequence of operations on `without_alloc::Box` (new, deref, into_inner/take, into_raw, from_raw, leak, drop) the value is dropped exactly once or moved out exactly once or leaked, and never accessed afterwards.",
  "all operation sequences",
  "All histories.",
  [BX+":Box", BX+":Box::take", BX+":Drop for Box"])
p("C52", "Rc counts match the handles",
  "In every sequence of clone, downgrade, upgrade, drop, try_unwrap, into_raw/from_raw on one Rc allocation, strong_count is the number of strong handles and weak_count the number of Weak handles, plus one (as documented) while strong handles exist, as long as counts stay below usize::MAX.",
  "all operation histories over any number of handles",
  "All histories.",
  [RC+":Rc::clone", RC+":Rc::downgrade", RC+":Weak::upgrade", RC+":Drop for Rc", RC+":Drop for Weak", RC+":strong_count", RC+":weak_count"])
p("C53", "The Rc value is dropped exactly when the last strong handle goes",
  "The contained value is dropped exactly once, when the last strong handle is dropped, or moved out exactly once by try_unwrap of a unique strong handle; it is never accessible afterwards (upgrade returns None), and always accessible before.",
  "all histories",
  "All histories.",
  [RC+":Drop for Rc", RC+":try_unwrap", RC+":upgrade"])
p("C54", "Mutable access to an Rc value is exclusive",
  "`get_mut` returns a reference only if the handle is the only handle (strong and weak) of the allocation.",
  "all histories",
  "All histories.",
  [RC+":get_mut", RC+":is_unique"])
p("C55", "The memory of an Rc is released only once, to the last handle",
  "`Weak::try_unwrap`/`Rc::try_unwrap` give back the memory only when no other handle remains that could access it, at most one handle ever gets it, and while the value's destructor still runs it is not given back.",
  "all histories, also destructors that re-enter the Rc API through a stored Weak",
  "Re-entrant destructors; all histories.",
  [RC+":Weak::try_unwrap", RC+":Rc::try_unwrap", RC+":Drop for Rc"])
p("C56", "Rc raw pointers round-trip",
  "`Rc::into_raw` gives a pointer to the value inside of the allocation, `from_raw` of it gives a handle to the same allocation with unchanged counts; `Rc::layout` describes memory in which value and counters lie without overlap, for every value layout.",
  "all value layouts and targets",
  "All layouts.",
  [RC+":into_raw", RC+":from_raw", RC+":Rc::layout", RC+":RcBox"])
p("C57", "Rc count overflow is not exploitable",
  "Cloning and forgetting handles any number of times never makes a count wrap to a smaller value, so that the value is never dropped while handles exist.",
  "all histories incl. those with usize::MAX forgotten handles",
  "A test cannot run 2^64 clones.",
  [RC+":inc_strong", RC+":inc_weak"])
# ------------------------------------------------------------------ alloc ext
p("C58", "LocalAlloc extension methods never hit their unwraps",
  "`alloc_t`, `boxed`, `rc`, `fixed_vec`, `copy_slice`, `copy_str` for any allocator fulfilling the LocalAlloc contract return None exactly if the allocator cannot serve the needed layout or the layout does not exist, and never panic.",
  "all allocators fulfilling the contract, all types, lengths",
  "All allocators.",
  [AL+":alloc_t", AL+":boxed", AL+":rc", AL+":fixed_vec", AL+":copy_slice"])
p("C59", "copy_slice and copy_str return an equal copy",
  "`copy_slice(s)` returns a slice equal to s, located in memory of the allocator disjoint from s, and s is unchanged; `copy_str` returns an equal string.",
  "all slices (element layouts, also zero-sized), contents",
  "All contents/types.",
  [AL+":copy_slice", AL+":copy_str"])
p("C60", "fixed_vec allocates the requested capacity",
  "`fixed_vec::<V>(n)` returns an empty FixedVec with capacity at least n (exactly n for an allocator that returns exact layouts; unlimited for zero-sized V) in memory of the allocator.",
  "all n, element layouts, allocators",
  "All n incl. overflow.",
  [AL+":fixed_vec"])
p("C61", "Default realloc and alloc_zeroed of LocalAlloc are correct for every allocator",
  "For every allocator fulfilling the alloc/dealloc contract of `LocalAlloc`, the provided default `realloc` preserves min(old,new) bytes, deallocates the old block only on success, leaves it untouched on failure, and the default `alloc_zeroed` zeroes exactly the block.",
  "all contract-fulfilling allocators, layouts, contents",
  "Quantifies over all implementations.",
  ["alloc-traits/src/util.rs", "alloc-traits/src/local.rs"])
p("C62", "NonZeroLayout is exactly the layouts of non-zero size",
  "`NonZeroLayout::from_layout`/`new` succeed exactly for layouts/types of non-zero size and keep size and alignment, conversion to Layout and back is the identity.",
  "all layouts",
  "All layouts.",
  ["alloc-traits/src/layout.rs"])
# ------------------------------------------------------------------ fill
p("C63", "Filling does not lose items",
  "For Vec, VecDeque, Option and () and every other well-behaved container: the items taken from the iterator are exactly the items stored, in order, at most as many as there is room (no reallocation); what is left in the iterator of fill_and_keep_tail continues exactly after them; a full container takes nothing; fill_count returns the number of items stored.",
  "all iterators (also infinite) and containers",
  "All iterators.",
  [FI+":Fill", FI+":fill_count", FI+":fill_and_keep_tail"])
p("C64", "checked_fill tells whether the iterator ran out",
  "`checked_fill` returns None exactly if the iterator ended before the container was full; otherwise it returns the remaining iterator, which continues exactly with the first item that was not stored. A container that is already full never polls the iterator.",
  "all iterators (also non-fused and infinite) and well-behaved containers",
  "All iterators.",
  [FI+":checked_fill"])
p("C65", "Filling an Option or Result",
  "Filling an `Option` takes at most one item, and none if it is Some. Filling a `Result` stores Ok-items in the inner container until the first Err, which replaces the Result; once the inner container is full no further items are consumed.",
  "all iterators, all initial containers",
  "All iterators incl. infinite.",
  [FI+":Fill for Option", FI+":Fill for Result"])
p("C66", "Filling slices overwrites a prefix",
  "Filling through a `slice::IterMut` overwrites the first min(n, items) elements in order and leaves the rest unchanged; elements and items are matched one to one, none skipped.",
  "all slices, iterators",
  "All iterators.",
  [FI+":Fill for IterMut"])
# ------------------------------------------------------------------ unsize
p("C67", "Unsizing keeps the pointee and adds the right metadata",
  "`unsize`/`unsize_with` on any CoerciblePtr container gives a pointer of the same address with the metadata the coercion provides (the array length for slices, the vtable of the source type for trait objects); for owning containers the ownership moves unchanged (no drop, no count change).",
  "all addresses, lengths, coercions satisfying the contract",
  "All coercions.",
  [US+":unsize", US+":CoerciblePtr", US+":Coercion", BX+":CoerciblePtr for Box", RC+":CoerciblePtr for Rc", UN+":CoerciblePtr for Uninit"])
p("C68", "copy_dst copies a dynamically sized value",
  "`copy_dst(v)` (nightly feature) for any value of any layout returns a reference with the metadata of v that is aligned for the value and refers to a copy of its bytes in memory of the allocator; v is unchanged; it returns None exactly if the allocator fails and never panics.",
  "all layouts (also zero-sized), contents, metadata, allocators",
  "All layouts and allocators.",
  [AL+":copy_dst"])
p("C69", "Unsizing keeps the provenance",
  "The pointer that `unsize` returns may be used for the same accesses as the original one (for references and Box: to the value; for raw pointers, NonNull, Rc, Arc, Weak, Uninit, UninitView and without_alloc::Box: to all memory the original may access), and using the original afterwards is as valid as before.",
  "all pointer kinds (also pinned ones), addresses, borrow states, coercions satisfying the contract",
  "Undefined behaviour of pointers is not observable by tests.",
  [US+":unsize", US+":unsize_with", US+":CoerciblePtr for Pin", BX+":CoerciblePtr for Box", UN+":CoerciblePtr for Uninit"])
# ------------------------------------------------------------------ concurrent GlobalAlloc
p("C70", "A multi-threaded program gets disjoint blocks from the global allocator",
  "With any number of threads calling alloc, alloc_zeroed, realloc and dealloc of a static Bump (and its other methods) at the same time, the blocks the program owns are at every moment pairwise disjoint, not null, aligned, and inside the storage; no call panics or is undefined behaviour; a zeroed block is still zero when it is returned, and null is only returned when the request does not fit.",
  "all numbers of threads, all schedules of single steps, all programs that follow the contract of GlobalAlloc",
  "All interleavings.",
  [SB+":GlobalAlloc for Bump", SB+":LocalAlloc for Bump", SB+":try_alloc"])
p("C71", "The contents of a block belong to its owner",
  "A block which the program owns keeps its bytes as long as the program itself does not write to it, whatever calls other threads are running on the allocator; what the program wrote is what it reads.",
  "all schedules, all blocks, all contents",
  "All interleavings.",
  [SB+":GlobalAlloc for Bump"])
p("C72", "realloc is correct under contention",
  "realloc called while other threads use the allocator returns either null, and the old block is unchanged and still owned by the caller, or a block of the new size whose contents start with the old contents; it fails only if the new size is no valid layout or does not fit; a block that does not grow stays in place.",
  "all schedules between call and return, all blocks and sizes",
  "All interleavings.",
  [SB+":GlobalAlloc for Bump::realloc", SB+":LocalAlloc for Bump::realloc"])
p("C73", "The global allocator is wait-free",
  "Every call of GlobalAlloc returns after a bounded number of steps of the calling thread (linear in the size of the storage and in the bytes to zero or to copy), whatever the other threads do.",
  "all schedules, fair or not",
  "All interleavings.",
  [SB+":GlobalAlloc for Bump", SB+":alloc", SB+":try_alloc"])
p("C74", "The global allocator has no data races",
  "No two threads inside of the allocator ever access the same byte without synchronization at the same time if one of the accesses is a write, and none of them accesses memory the program owns at that time.",
  "all reachable states of all schedules",
  "Races are not observable by tests.",
  [SB+":GlobalAlloc for Bump", SB+":LocalAlloc for Bump::realloc"])

p("C75", "A FixedVec touches only its memory",
  "Every operation of a FixedVec writes only to the memory its buffer covers; a history of operations of any number of vectors changes only memory that was given to `new`; and nothing observable (results, elements, order of drops, panics) depends on what the given memory contained before.",
  "all histories, all contents of memory, all addresses outside",
  "Stray writes are only noticed if a test looks at that address.",
  [FV+":FixedVec::push", FV+":FixedVec::pop", FV+":FixedVec::truncate", FV+":FixedVec::fill", FV+":Drop for Drain"])
p("C76", "Comparison and hashing see the elements only",
  "Comparing or hashing two FixedVecs gives what comparing and hashing their slices gives: lexicographic, independent of capacity and memory; equal vectors hash equally and a vector can be looked up by its slice. Comparing and hashing Box and Rc is comparing and hashing the values.",
  "all contents, all (also unlawful) methods of the element type",
  "All contents and orders.",
  [FV+":PartialEq for FixedVec", FV+":PartialOrd for FixedVec", FV+":Ord for FixedVec", FV+":Hash for FixedVec", BX+":PartialOrd for Box", RC+":PartialOrd for Rc"])
p("C77", "Drain is an exact, fused, double-ended iterator",
  "At every moment `size_hint`, `len` and `as_slice` of a Drain agree with the number and the order of the items that it will still yield, whichever ends they are taken from; after the last one it yields None forever. An element replaced through `as_mut_slice` is yielded replaced, and the caller gets the old one.",
  "all vectors, ranges and sequences of next, next_back and replacements",
  "All interleavings of both ends.",
  [FV+":Iterator for Drain", FV+":DoubleEndedIterator for Drain", FV+":ExactSizeIterator for Drain", FV+":Drain::as_slice", FV+":Drain::as_mut_slice"])

p("C78", "A failed Chain::new has no effect and reports the size",
  "`Chain::new(size)` either gives a chain of exactly this capacity, all of it remaining, or it changes nothing and returns an error whose `allocation_size` is the size that the heap refused (capacity plus bookkeeping, rounded up), or the requested capacity if no layout of that size exists; the latter happens exactly for capacities that do not fit into a layout.",
  "all sizes, all answers of the heap, all reachable states",
  "Layout overflow and heap failure are not reachable by tests.",
  [UC+":Chain::new", UC+":TryNewError::allocation_size", UC+":Link::alloc", UC+":Link::layout_from_size"])
p("C79", "Fresh memory is as the storage was; a zeroed Bump hands out zeros",
  "Memory returned by an allocation (that stores no value itself) contains the bytes the storage had at the start (or at the last reset), in particular every allocation of a `Bump::zeroed()`, sync or unsync, is zero until the bump is reset; after a reset old bytes can show up.",
  "all schedules, all layouts, all writes of the owners of other blocks",
  "All interleavings and histories.",
  [SB+":Bump::zeroed", UB+":Bump::zeroed", SB+":try_alloc", UB+":try_alloc_at"])

p("C80", "Objects from one allocator do not interfere",
  "A program that makes boxes, Rcs, vectors, copies and raw allocations from one LocalAlloc in any order never panics in doing so; all its objects are disjoint, a new object holds the value given (or the copy) and fits its layout, and an object stays where it is and keeps its bytes until its owner writes to it, whatever the program does with the others.",
  "all allocators that fulfil the contract of LocalAlloc (in particular every Bump), all histories of calls and writes",
  "All histories and all allocators.",
  [AL+":LocalAllocLeakExt::boxed", AL+":LocalAllocLeakExt::rc", AL+":LocalAllocLeakExt::fixed_vec", AL+":LocalAllocLeakExt::copy_slice", AL+":LocalAllocLeakExt::alloc_layout", SB+":LocalAlloc for Bump"])

p("C81", "Reference counting works on the bytes of the memory",
  "Started on memory with any contents, with values of any size and alignment, Rc and Weak keep the value and the two counters in their block of memory so that every call answers as if there were no memory at all: a read through a handle gives exactly the bytes last stored, the counter words are the numbers of handles that exist, and a call writes to no byte outside of its own block.",
  "all contents of the memory, all value types, all placements of the blocks, all histories of calls and of raw writes to released memory",
  "All histories over all memories and layouts.",
  [RC+":Rc::new", RC+":RcBox", RC+":inc_strong", RC+":dec_strong", RC+":inc_weak", RC+":dec_weak", RC+":as_ptr", RC+":try_unwrap", RC+":into_raw"])

p("C82", "FixedVec works on the bytes of its memory",
  "On memory with any contents, vectors whose elements are stored as their bytes answer every history of calls as lists of values would, and run the same destructors in the same order; the bytes of a vector are those of its elements one after the other from its start, and no call changes a byte outside of the memory of the vector it is called on.",
  "all contents of the memory, all element types (also zero-sized), all histories of calls on any number of vectors and drains, also with panicking destructors and iterators",
  "All histories over all memories and layouts.",
  [FV+":push", FV+":pop", FV+":fill", FV+":extend", FV+":truncate", FV+":drain", FV+":Drain::drop", FV+":split_borrowed", FV+":Drop"])

p("C83", "Boxes in a bump hold their own values",
  "A program that makes LeakBoxes in one unsync bump (bump_box, get and boxed), writes, reads, replaces, takes, leaks and drops them and resets the bump when no box is left, on memory with any contents: every box reads back the value last put into it, whatever is done with other boxes and the bump; boxes are disjoint, aligned and inside of the bump; destructors run on exactly the values that were put in, each value is dropped or handed out at most as often as it was moved in, and exactly as often if nothing is leaked; no byte outside of the bump is written.",
  "all contents of the memory, all types, all programs permitted by types and borrows, also with panicking destructors",
  "All histories, over all memories, addresses and layouts.",
  [UB+":MemBump::bump_box", UB+":MemBump::get", UB+":MemBump::reset", SB+":Allocation::boxed", LK+":LeakBox::write", LK+":LeakBox::take", LK+":LeakBox::leak", LK+":LeakBox::into_raw", LK+":LeakBox::from_raw", LK+":Drop for LeakBox"])

p("C84", "Chains survive whatever is written to their values",
  "On memory with any contents, where the links of chains keep their pointers and counters next to the values, and freed memory is overwritten: programs that make, join, use and drop chains in any order, writing anything to their values and to other memory, never follow a pointer that is not of an allocated link and never free anything twice; each call answers as if chains were plain lists of slabs; following the pointers in memory finds exactly these slabs; nothing else is allocated, and nothing when all chains are gone; borrowed values are apart from all pointers and counters and keep their bytes.",
  "all contents of the memory, all answers of the heap, all programs permitted by types and borrows, chains of any length",
  "All histories over all memories; a corrupted pointer shows up only in special layouts.",
  [UC+":Chain::new", UC+":Chain::chain", UC+":Chain::bump_box", UC+":Link::set_next", UC+":Link::take_next", UC+":Link::alloc", UC+":Drop for Chain", UC+":Drop for Link"])

p("C85", "The exit stack works in the bytes of its memory",
  "On memory with any contents, where the links between pinned values are fat pointers stored next to the values, and destructors change the bytes of the value they run on: programs that take slots, pin values of any types, write to pinned values, set, pop_all and drop the stack never follow a pointer to a value whose destructor was begun; every call answers as if the stack were a list of values; a pinned value stays at its aligned address, apart from all other slots and from the stack's own fields, and keeps its bytes until it is written to or the stack is cleared; clearing runs the destructors, last pinned first, on the bytes last written, up to the first one that unwinds.",
  "all contents of the memory, all types, all destructors (also unwinding ones), all programs permitted by types and borrows",
  "All histories over all memories, layouts and destructors.",
  [ES+":ExitStack::slot", ES+":ExitStack::set", ES+":ExitStack::pop_all", ES+":Slot::pin", ES+":Slot::pin_local", ES+":inner_pop_all_with_unsafe_self_and_pinned", ES+":Drop for ExitStack"])

p("C86", "Data structures in one memory do not interfere",
  "Any number of FixedVecs, Rcs and Weaks, ExitStacks, Chains, bump allocators, LeakBoxes in bump allocators, and pieces of memory with Boxes in them, of any types and in disjoint parts of one memory, can be used by one program, with calls in any order: no call is undefined behaviour, each structure answers exactly what it would if it were alone, and bytes of memory that belong to none of those called never change. Whether a call is permitted depends on the structure that is called only, so that a program can be checked one structure at a time. Memory that one bump allocator has handed out for different purposes, in the same program, is such disjoint memory, and is apart from the allocator's own.",
  "all sets of structures and types, all places for them in memory, all contents of the memory, all programs with calls permitted by types, borrows and safety sections, in all orders",
  "Combinations of structures, layouts and interleaved histories are unbounded.",
  [UB+":MemBump::get", FV+":FixedVec", RC+":Rc", RC+":Weak", ES+":ExitStack", LK+":LeakBox", UB+":MemBump::bump_box"])

p("C87", "Levels and addresses are in the order of the allocations",
  "The level that comes with an allocation of the static bump is the place of its end in the storage; of two allocations (since the last reset) the one with the smaller level has the smaller addresses, whichever threads made them; a call that starts after memory was handed out, or after a level was seen, gets memory behind it, and memory handed out before a level was seen is before it.",
  "all slabs, all calls of any number of threads, all schedules",
  "All interleavings.",
  [SB+":Bump::level", SB+":Bump::get", SB+":Bump::get_at", SB+":Bump::leak_at", SB+":Allocation"])

p("C88", "Threads with boxes in one shared bump do not disturb each other",
  "Threads that make LeakBoxes, leaked references and allocations in one shared static bump (leak_box, leak, get and the variants with a level, all racing), read, replace, assign, take, leak and drop them, send references to other threads, and reset the bump when there is no box left, on memory with any contents: there are no data races (memory of variables is disjoint, and no running call writes to it), every thread reads back the value last put into its variable; destructors run on exactly the values put in; each value is dropped or handed out at most as often as it was moved in, and exactly as often if nothing is leaked.",
  "all numbers of threads, all schedules, all contents of the memory, all types, all programs permitted by types and borrows, also with panicking destructors",
  "All interleavings of all histories.",
  [SB+":Bump::leak_box", SB+":Bump::leak_box_at", SB+":Bump::leak", SB+":Bump::leak_at", SB+":Bump::get", SB+":Bump::get_at", SB+":Bump::reset", SB+":Allocation::boxed", SB+":Allocation::leak", LK+":LeakBox::take", LK+":LeakBox::leak", LK+":LeakBox::from_raw", LK+":Drop for LeakBox"])

p("C89", "Threads that use the data structures in memory of the global allocator",
  "The static bump is the global allocator of a program with any number of threads, which allocate, zero, reallocate and free blocks concurrently, and make fixed vectors, reference counted values, boxes (also in a nested bump), exit stacks and chains in the blocks that they got. Calls of the structures are not atomic: calls of the allocator and of other structures run in between. Then no call is undefined behaviour, each structure answers exactly what its specification without memory, allocator and other threads says, its blocks stay allocated and its bytes inside of the storage, no other structure or thread inside of the allocator accesses these bytes (no data races), and only its own calls change them.",
  "all numbers of threads, all schedules, all sets and kinds of structures, all calls permitted by types and borrows, all contents of the memory, also when structures end and their blocks are freed and used again",
  "All interleavings of all histories of all users of one memory.",
  [SB+":GlobalAlloc for Bump", FV+":FixedVec", RC+":Rc", RC+":Weak", ES+":ExitStack", UB+":MemBump", LK+":LeakBox"])

p("C90", "The guarantees of the shared bump hold in the memory model of the language",
  "Threads call methods of one static bump, and the compiler and the processor do with its atomic operations whatever the memory model of Rust (that of C++20) allows. Every such execution is equivalent to an interleaving of the steps of the threads that is consistent with happens-before, so the calls are linearizable with respect to happens-before; memory returned by any two calls, ordered or not, is disjoint and in the storage; and the value a call stores is written to memory that no other call writes to or has returned, so there are no data races. That remains true if the atomic operations were weaker than SeqCst. Conversely every interleaving is an execution of the memory model.",
  "all executions (graphs of actions with reads-from, modification order and happens-before) that satisfy the axioms, with any number of threads, calls and additional synchronisation",
  "Which executions a test shows depends on the processor and the compiler; weak behaviours are hardly ever seen.",
  [SB+":Bump::bump", SB+":Bump::try_alloc", SB+":Bump::try_alloc_at", SB+":Bump::level", SB+":Bump::leak", SB+":Bump::leak_at"])

p("C91", "Boxes and pieces of memory of the user keep their values apart",
  "A program gets pieces of memory of any contents as Uninits, casts and splits them, puts values into the pieces (directly or as Boxes), reads, replaces, takes, leaks and drops them and uses the memory that comes back for values of other types. Then no two pieces, boxes and references have a byte in common, all are within the memory that was given, boxes are aligned and have room for their value; every box reads back the value last put into it, whatever is done with the others; memory that is not given up remains in some piece or box; destructors run on exactly the values put in; each value is dropped or handed out at most as often as it was moved in, and exactly as often if all values are in boxes that are not leaked.",
  "all programs permitted by types, borrows and the safety sections, all types, all contents of the memory, also with panicking destructors",
  "All histories of casts, splits and moves of values of all types.",
  [BX+":Box::new", BX+":Box::take", BX+":Box::leak", BX+":Box::into_raw", BX+":Box::from_raw", BX+":Drop for Box", UN+":Uninit::init", UN+":Uninit::read", UN+":Uninit::into_mut", UN+":Uninit::cast", UN+":Uninit::split_at_byte", UN+":Uninit::split_at", UN+":Uninit::split_cast"])

p("C92", "A pinned box of a static pool stays where it is until its destructor has run",
  "A thread turns a box in a static pool into a pinned one with LeakBox::into_pin. Whatever any threads do afterwards, and even if the box is forgotten: the value stays at its address, no memory that is handed out later overlaps it, its bytes change only if its owner sets another value through the pin, and if the box is dropped then the destructor runs on exactly these bytes. The same holds for boxes in an unsync bump. It would not hold without the 'static bound of into_pin: a box that is not borrowed for 'static can be lost and its memory be handed out again without that the destructor has run.",
  "all programs before and after the pin, any number of threads, all interleavings, all types, also if the bump is full",
  "The guarantee is about everything that the program does for the rest of its life.",
  [LK+":LeakBox::into_pin", SB+":Bump::leak_box", SB+":Bump::reset", UB+":MemBump::bump_box", LK+":Drop for LeakBox"])

p("C93", "A program with Bump as global allocator has no data races because of it",
  "Threads use one static bump through GlobalAlloc (alloc, alloc_zeroed, realloc, dealloc) and its own methods, and read and write the bytes of the blocks they have. If the program keeps to the contract - a block is used, passed on and freed only by who has received it, once, and its own accesses to a block are ordered by happens-before when one of them is a write - then no two accesses race, neither those of the program nor those which the allocator makes itself when it zeroes, copies or stores values; two blocks overlap only if one of them was passed to the allocator before the other one was received; all blocks are in the storage; and no call has undefined behaviour. All in the memory model of the language, whatever the compiler and the processor do.",
  "all executions that the memory model permits, any number of threads, calls, accesses and additional synchronisation, atomic operations of any ordering",
  "Races depend on schedules and on the processor, and most are not seen even when they happen.",
  [SB+":GlobalAlloc for Bump", SB+":LocalAlloc for Bump", SB+":Bump::bump", SB+":Bump::try_alloc", SB+":Bump::leak"])

p("C94", "Blocks of the global allocator hold what the program put there, also when they move between threads and are reallocated",
  "Threads use one static bump as global allocator, as in C93, and the memory model says of reads that are not atomic only that they have the value of a write that happens before them without another one in between. Then a read through a block gets the byte that the program has written there last through this block; if it has not written there: zero if the block is of alloc_zeroed, the byte of the value if one was moved there by leak, and if the block is of realloc, what the block had held at this offset that was passed to realloc (up to the smaller of the sizes, and if realloc failed then all of it). What is written to other blocks, by whatever thread, has no effect.",
  "all executions that the memory model permits, any number of threads, calls, accesses and chains of reallocations, in place or not",
  "All executions, and each one's chains of owners in several threads.",
  [SB+":GlobalAlloc for Bump", SB+":LocalAlloc for Bump", SB+":Bump::leak", SB+":Allocation::leak"])

p("C95", "Programs with the global allocator behave as if their threads took turns",
  "Threads use one static bump as global allocator and follow the contract, as in C93 and C94. Then for every execution that the memory model permits there is an order of all actions of all threads, in which the order of each thread and happens-before are kept, such that every read, also of the level of the allocator, gets what was written latest in this order. Executing the actions in this order one after the other, on one memory, gives the same results of all calls, the same values, and every action is possible when it is its turn: blocks are owned when they are used or passed on. So everything that holds for interleavings (C70 to C74) holds in the memory model. Conversely every interleaving is an execution that the memory model permits, with the same actions, and with every happens-before that fits the order of time and for which the contract is followed.",
  "all executions that the memory model permits, any number of threads, calls and accesses",
  "All executions; that an order exists for each cannot be observed.",
  [SB+":GlobalAlloc for Bump", SB+":LocalAlloc for Bump", SB+":Bump::try_alloc"])

p("C96", "Structures linked by boxes are dropped completely, node by node",
  "Values may contain boxes (of leak_box, or of boxed) of other values, which contain boxes again: lists, trees. A program makes values, puts them in boxes, links these into other values directly or through references, detaches and replaces parts anywhere in a structure, takes values out of their boxes, and drops or forgets any of it. It always finds the values that it put there, without undefined behavior. Dropping a value or box runs the destructor of the value and then those of everything that it owns at that time, in order from owner to owned, also if one of them panics (a second panic aborts the program), and also if leak_box fails and drops its argument. No destructor is run twice; and at any time every value has been destroyed, is still held by a variable, or was forgotten.",
  "all programs of such operations, all shapes and sizes of structures, all choices of panicking destructors, slabs of every size, address and level, and any previous content of memory",
  "Structures are unbounded, and so are the histories that build and change them; only examples can be tested.",
  [SB+":Bump::leak_box", LK+":Drop for LeakBox", LK+":LeakBox::take", LK+":LeakBox::leak", LK+":Deref for LeakBox", LK+":DerefMut for LeakBox", BX+":Drop for Box", BX+":Box::take", AL+":LocalAllocLeakExt::boxed"])

p("C97", "Structures shared by Rc: a value is destroyed exactly when its last strong pointer is gone",
  "Values in without_alloc::Rc may contain Rc and Weak pointers themselves: shared lists, trees with parent pointers, arbitrary graphs with cycles. A program makes, shares, clones, downgrades and upgrades pointers, stores them in values before and after these are shared, follows them, takes them out again, exchanges, unwraps and recycles values and their memory, and drops or forgets any of it. At any time (unless a second panic while unwinding aborted the program) a shared value exists if and only if there is a strong pointer to it: in a variable, in a value that exists, or forgotten. So what can be reached by strong pointers exists and has the content that the program gave it, upgrade succeeds exactly then, counts are the numbers of pointers, and dropping the last strong pointer destroys the value and then drops its pointers, recursively, also if a destructor panics. No destructor is run twice. Only cycles of strong pointers leak: without them every value has been destroyed when no variable is left and nothing was forgotten; weak back pointers make no cycles.",
  "all programs of such operations, all graphs, all choices of panicking destructors, slabs of every size, address and level, with and without overflow checks, as long as there are less than usize::MAX pointers to each block",
  "Graphs and histories are unbounded, and the recursion of destructors depends on both; tests can only try a few shapes.",
  [RC+":Drop for Rc", RC+":Drop for Weak", RC+":Clone for Rc", RC+":Clone for Weak", RC+":Rc::downgrade", RC+":Weak::upgrade", RC+":Rc::try_unwrap", RC+":Weak::try_unwrap", RC+":Rc::get_mut", RC+":Rc::strong_count", RC+":Rc::weak_count", RC+":Rc::ptr_eq", RC+":Rc::new", AL+":LocalAllocLeakExt::rc"])

p("C98", "Vectors in vectors: FixedVec of a type that contains a FixedVec of itself",
  "A type may contain a FixedVec whose elements are of this type again: trees in which every node has its children inline in its own allocation. A program makes values with vectors of any capacity, pushes values into vectors at any depth, pops, truncates, drains (taking from both ends, then dropping or forgetting the drain), splits vectors in two, swaps whole values with mem::swap, and drops or forgets any of it. It always finds what it put there, without undefined behavior, also after moves of values that contain vectors and of the elements behind a drained range. Capacities are those at creation or after a split. Dropping a value runs its destructor and then those of all elements, from owner to owned and in the order of the vector; truncate goes from the back, a drain from the front. A panic in a destructor in truncate leaves the elements in front in the vector; in a drain it gives up the rest of the drain and the elements behind it. No destructor is run twice, and every value has been destroyed, is held, or was given up in one of these ways.",
  "all programs of such operations, all shapes and depths, all capacities and choices of panicking destructors, all layouts of nonzero size, slabs of every size, address and level, and any previous content of memory",
  "Depth, sizes and histories are unbounded; an error in the order of moves and drops shows only in particular shapes.",
  [AL+":LocalAllocLeakExt::fixed_vec", FV+":FixedVec::push", FV+":FixedVec::pop", FV+":FixedVec::truncate", FV+":FixedVec::drain", FV+":Drop for Drain", FV+":FixedVec::split_and_shrink_to", FV+":Drop for FixedVec", FV+":IndexMut for FixedVec"])

p("C99", "Destructors may use shared pointers in any way",
  "The destructor of a value in a without_alloc::Rc is code of the user: it may take Rc and Weak pointers out of its own value or put others in, clone, upgrade, downgrade and drop these and all other pointers of the program, allocate, and so begin and complete other destructors, and it may panic. At any time, also in the midst of destructors, a shared value exists if and only if there is a strong pointer to it: in a variable, in a value that exists, in a value that is being destroyed, or forgotten. Its destructor is begun at once when the last one is gone, afterwards its remaining pointers are dropped in order; what the destructor took out survives. A value that is being destroyed can not be reached: upgrade gives None. Counts are the numbers of pointers. No destructor is begun twice, nothing is used after its destruction, a panic continues after the remaining pointers have been dropped, a second one while unwinding aborts. Only cycles of strong pointers leak.",
  "all programs of such operations and all behaviors of destructors, nested to any depth, all graphs, slabs of every size, address and level, with and without overflow checks, as long as there are less than usize::MAX pointers to each block",
  "Re-entrant code in destructors sees the library in intermediate states; the interleavings of nested destructors with operations on arbitrary graphs are unbounded.",
  [RC+":Drop for Rc", RC+":Drop for Weak", RC+":Weak::try_unwrap", RC+":Weak::upgrade", RC+":Clone for Rc", RC+":Clone for Weak", RC+":Rc::downgrade", RC+":Rc::try_unwrap", RC+":Rc::get_mut", AL+":LocalAllocLeakExt::rc"])

p("C100", "LeakBox, Rc and Weak can be combined in one program",
  "A program may use static_alloc::leaked::LeakBox and without_alloc::rc::Rc and Weak together: values contain pointers of all three kinds in any combination, they are accessed and changed through chains of these, moved, exchanged (mem::swap, get_mut), taken out (LeakBox::take, Rc::try_unwrap), their memory is used again, and their destructors are code of the user that may do all of this too and may panic. As long as Weak::try_unwrap is not called for the memory of a value that is being destroyed (see C99): at any time a value exists if and only if there is a LeakBox or an Rc for it; there is never more than one LeakBox for a value; its destructor is begun at once when this, or the last Rc, is gone, and never twice; nothing is used after its destruction; counts are the numbers of pointers; a value that is being destroyed can not be reached, and upgrade gives None. A LeakBox is never, directly or in further ones, inside of itself. Only cycles with an Rc on them leak.",
  "all programs of such operations and all behaviors of destructors, nested to any depth, all graphs with pointers of the three kinds, all paths in them, slabs of every size, address and level, with and without overflow checks, as long as there are less than usize::MAX pointers to each block and Weak::try_unwrap is not called for a value that is being destroyed",
  "The interaction of both libraries depends on the shape of the graph, which is unbounded; tests use each pointer type alone.",
  [LK+":Drop for LeakBox", LK+":LeakBox::take", LK+":LeakBox::leak", LK+":Deref for LeakBox", SB+":Bump::leak_box", RC+":Drop for Rc", RC+":Drop for Weak", RC+":Weak::try_unwrap", RC+":Weak::upgrade", RC+":Clone for Rc", RC+":Clone for Weak", RC+":Rc::downgrade", RC+":Rc::try_unwrap", RC+":Rc::get_mut", AL+":LocalAllocLeakExt::rc"])

p("C101", "Filling neither loses a value nor destroys one twice",
  "After filling a container, through `fill`, `fill_and_keep_tail` or `checked_fill`, each value that was in the container and each value of an item that was taken from the iterator is in the container, or was destroyed, exactly once. `Vec`, `VecDeque` and `Option` destroy nothing. A slice destroys exactly the elements that are overwritten, one at a time. A `Result` destroys exactly the Ok items for which there is no room, and the container that an error replaces. All this holds also if the iterator or destructors panic: filling stops there, the item that was being stored is in its place, and items not taken remain in the iterator. Filling through references swaps values, none is destroyed.",
  "all containers of the crate (Results nested to any depth), all iterators (also non-fused, infinite, panicking), all destructors that may panic, items with any number of values",
  "lost and double drops show only for particular interleavings of full containers, errors and panicking destructors",
  [FI+":Fill", FI+":impl Fill for Result", FI+":impl Fill for IterMut", FI+":impl Fill for Option", FI+":impl Fill for Vec"])

p("C102", "Destructors of pinned values can use other exit stacks",
  "The destructor of a value pinned to an exit stack can itself be any program: it can make exit stacks, pin values to them, use `set`, clear and drop them (which runs further destructors, nested to any depth), and read and write its own value. However the destructors are nested, no call is undefined behaviour; every call gives the address, bytes or failure it would give if each stack were a list of values; no destructor is begun twice; in each stack the destructors are begun last in, first out; slots of different values never overlap, also not while the stack is being cleared; and each value pinned is at every moment in its stack, waiting, begun, or lost because a destructor of its stack unwound. If none unwinds, dropping a stack runs the destructor of each of its values exactly once.",
  "all programs, stacks of any number, size and position, types of values, depth of nesting, destructors that return or unwind",
  "re-entrance of destructors is a matter of schedules: a destructor may run any other operation at each of its steps, on any number of stacks",
  [ES+":ExitStack::pop_all", ES+":ExitStack::set", ES+":ExitStack::slot", ES+":Slot::pin", ES+":inner_pop_all_with_unsafe_self_and_pinned", ES+":impl Drop for ExitStack"])

p("C103", "FixedVec respects the aliasing rules of the language",
  "A program which the borrow checker accepts has no undefined behaviour by the aliasing rules (Stacked Borrows) when it uses FixedVec: push, pop, truncate, clear, fill, extend, slices, index, split_borrowed, split_and_shrink_to, drain and its slices, drop and forget access only memory that their pointers may access at that time, also when iterators or destructors panic. References to elements of one vector stay usable whatever is done with other vectors, also those split from the same memory, and shared ones while the vector is read. A pointer from as_mut_ptr/as_ptr is valid for reading and writing the whole capacity, not only the elements, and stays so when the vector is used in between. The lengths are those of a bounded vector.",
  "all programs of these operations on any number of vectors split from one memory, with references reborrowed to any depth and raw pointers, element sizes, capacities, positions and previous borrows of the memory",
  "whether a pointer may be used depends on the whole history of accesses and references; tests, and Miri, check single histories (the bug fixed in 0.2.2 was found that way)",
  [FV+":FixedVec::as_mut_ptr", FV+":FixedVec::fill", FV+":FixedVec::push", FV+":FixedVec::pop", FV+":FixedVec::truncate", FV+":FixedVec::drain", FV+":FixedVec::split_borrowed", FV+":FixedVec::split_and_shrink_to", FV+":Drop for Drain", FV+":Drop for FixedVec", UN+":Uninit::as_begin_ptr", UN+":Uninit::init"])

p("C104", "Bump and LeakBox respect the aliasing rules of the language",
  "A program which the borrow checker accepts has no undefined behaviour by the aliasing rules (Stacked Borrows) when it allocates through shared references to a Bump, which give mutable references to memory inside of it: allocating with alloc, alloc_at, leak, leak_at, leak_box, leak_box_at, reading the level, making further shared references to the Bump, using the memory through the raw pointer, writing and leaking it, making, dereferencing, leaking, taking and dropping a LeakBox access only memory that their pointers may access at that time. The references to each allocation, and those reborrowed from them, stay usable whatever is done with the Bump and with other allocations, until reset, which needs exclusive access. References to different allocations never overlap.",
  "all programs of these operations, with any number of allocations of all layouts, shared references to the Bump, and references reborrowed to any depth; all sizes and positions of the Bump, levels, and previous borrows of it",
  "a Bump gives out mutable references derived from shared ones; whether a later call invalidates one of these depends on the whole history, which tests and Miri only sample",
  [SB+":Bump::alloc", SB+":Bump::alloc_at", SB+":Bump::level", SB+":Bump::leak", SB+":Bump::leak_at", SB+":Bump::leak_box", SB+":Bump::reset", SB+":Allocation::leak", SB+":Allocation::boxed", SB+":Allocation::uninit", LK+":Deref for LeakBox", LK+":LeakBox::leak", LK+":LeakBox::take", LK+":Drop for LeakBox"])

p("C105", "Rc and Weak respect the aliasing rules of the language",
  "A program which the borrow checker accepts has no undefined behaviour by the aliasing rules (Stacked Borrows) when it uses Rc and Weak: making an Rc in memory, clone, downgrade, upgrade, the counts, deref, get_mut, try_unwrap, into_raw, from_raw, and dropping them in any order access only memory that their pointers may access at that time. The references which deref and get_mut give, the one of the destructor of the value, and those reborrowed from them stay usable as long as the borrow checker permits, whatever is done with other Rc and Weak to the same value. No two pointers have a mutable reference to the value at once; get_mut succeeds exactly if there is no other pointer, the destructor runs exactly with the last Rc, upgrade succeeds exactly if there is an Rc, and memory is given back exactly if there is no other pointer to it.",
  "all programs of these operations, with any number of values, handles and references reborrowed to any depth; all sizes and positions of the values and their counters, and previous borrows of the memory",
  "many handles share one raw pointer from which mutable and shared references are made; whether one invalidates another depends on the whole history, which tests and Miri only sample",
  [RC+":Rc::new", RC+":Rc::into_raw", RC+":Rc::from_raw", RC+":Rc::try_unwrap", RC+":Rc::downgrade", RC+":Rc::strong_count", RC+":Rc::weak_count", RC+":Rc::get_mut", RC+":Weak::upgrade", RC+":Weak::try_unwrap", RC+":Weak::strong_count", RC+":Weak::weak_count", RC+":Deref for Rc", RC+":Drop for Rc", RC+":Drop for Weak", RC+":Clone for Rc", RC+":Clone for Weak"])

p("C106", "Values pinned to an exit stack stay where they are, whatever safe code does with the stack",
  "A value pinned to an ExitStack stays at its address until its destructor ran there: programs of safe code, which can also move the ExitStack itself wherever the language permits it, are not undefined behaviour, never move a pinned value, and run each destructor at the address at which the value was pinned. A stack that is moved without pinned values works at the new place as before.",
  "all programs of slot, pin, set, pop_all, writes, drop, and moves of the stack to any address, with values and destructors of all types, for Mem that is Unpin and for Mem that is not",
  "whether a move is possible depends on auto traits of the type parameter; tests pin the stack with a macro which does not let them move it",
  [ES+":ExitStack::slot", ES+":ExitStack::set", ES+":ExitStack::pop_all", ES+":Slot::pin", ES+":Drop for ExitStack"])

p("C107", "The exit stack keeps its pointers usable under the aliasing rules",
  "Every access that the methods of ExitStack, the destructors it runs and safe code with its slots and pinned values make is permitted by the aliasing rules (Stacked Borrows, without protectors): the handles in the list of values are usable when pop_all, set or the destructor of the stack follows them, whatever was done with the stack and the references to values before, and a reference to a pinned value stays usable while slots are taken, and other values are pinned.",
  "all programs of sharing, slot, pin, set, pop_all, drop and uses and reborrows of the references to values, at any address, with values of all sizes, for Mem that is Unpin and for Mem that is not",
  "undefined behaviour is not visible in the result of a test; which accesses invalidate which pointers depends on the history of all references",
  [ES+":ExitStack::slot", ES+":ExitStack::set", ES+":ExitStack::pop_all", ES+":Slot::pin", ES+":Drop for ExitStack", UB+":Bump::bump_box"])

with open(os.path.join(os.path.dirname(__file__), "..", "properties.jsonl"), "w") as f:
    for x in P:
        f.write(json.dumps(x, ensure_ascii=False) + "\n")
print(len(P))
