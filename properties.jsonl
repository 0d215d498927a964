{"id": "C01", "title": "Concurrent allocations never overlap", "statement": "Any two non-zero-sized allocations handed out by one shared `Bump` (through alloc, alloc_at, get_layout, get_layout_at, get, get_at, leak, leak_at, leak_box, leak_box_at) without a `reset` between them occupy disjoint byte ranges, even when one of the calls has taken its range but not yet returned.", "quantifier": "all slab sizes and addresses, all numbers of threads, all sequences of calls and arguments per thread, all interleavings of their shared-memory accesses", "why_tests_cant": "A test runs a handful of the interleavings; overlap would need one particular race between a level observation and the compare-exchange.", "anchors": ["static-alloc/src/bump.rs:try_alloc", "static-alloc/src/bump.rs:try_alloc_at", "static-alloc/src/bump.rs:bump", "static-alloc/src/bump.rs:Sync for Bump"]}
{"id": "C02", "title": "Every allocation is in bounds, aligned and large enough", "statement": "Every successful allocation returns a non-null pointer that is a multiple of the requested alignment, and the requested number of bytes starting there lies completely inside the slab's storage, for alignments smaller and larger than the slab's own.", "quantifier": "all slab sizes/base addresses, all layouts (any power-of-two alignment), all call histories and interleavings", "why_tests_cant": "The padding depends on the runtime address of the slab; tests see only the addresses their run happens to get.", "anchors": ["static-alloc/src/bump.rs:try_alloc_at"]}
{"id": "C03", "title": "Calls panic exactly for zero-sized raw layouts and foreign levels", "statement": "A call panics if and only if it is given a zero-sized layout through the raw-layout interface, or a level larger than the slab together with a layout of non-zero size; none of the internal assertions or unwraps can fire otherwise, for any interleaving, and a call that panics changes neither the level nor any memory.", "quantifier": "all layouts, levels, addresses, slab states and interleavings", "why_tests_cant": "The internal assertions relate wrapped address arithmetic to bounds; a test cannot visit all addresses and levels.", "anchors": ["static-alloc/src/bump.rs:try_alloc_at", "static-alloc/src/bump.rs:bump", "static-alloc/src/bump.rs:for_zst"]}
{"id": "C04", "title": "The level only grows and never exceeds the slab", "statement": "While the slab is shared, all observed levels (from `level()`, from successful allocations and from Mismatch failures) form a non-decreasing sequence in real time, across all threads, and none exceeds the slab size.", "quantifier": "all histories and interleavings without an exclusive reset", "why_tests_cant": "Monotonicity is a statement about all pairs of observations of all schedules.", "anchors": ["static-alloc/src/bump.rs:level", "static-alloc/src/bump.rs:bump", "static-alloc/src/bump.rs:Failure::Mismatch"]}
{"id": "C05", "title": "Allocation at a level is exact", "statement": "`alloc_at`/`get_at`/`leak_at` with level L succeeds only if the slab's level is exactly L at that instant; then the allocation starts at the first address at or after base+L with the requested alignment, the returned level is the end of that allocation, and the slab's level becomes exactly that. If it fails with Mismatch the reported level differs from L and was the true level, and nothing changed.", "quantifier": "all levels, layouts, slab states, interleavings", "why_tests_cant": "It is an atomicity claim; another thread may allocate between any two instructions.", "anchors": ["static-alloc/src/bump.rs:alloc_at", "static-alloc/src/bump.rs:get_layout_at", "static-alloc/src/bump.rs:get_at", "static-alloc/src/bump.rs:try_alloc_at"]}
{"id": "C06", "title": "Out-of-memory answers are truthful and permanent", "statement": "When an allocation reports exhaustion, the request really does not fit behind the level of the slab at the moment of the answer, and the same request can never succeed later until the slab is reset; this holds although the implementation computes the answer from a possibly stale level (starting with the guess 0). For alloc_at the same holds if the given level was obtained from this slab.", "quantifier": "all layouts, stale guesses, interleavings and continuations", "why_tests_cant": "The answer is computed from a stale snapshot; correctness needs a monotonicity argument over every future.", "anchors": ["static-alloc/src/bump.rs:try_alloc", "static-alloc/src/bump.rs:try_alloc_at"]}
{"id": "C07", "title": "An allocation that fits succeeds", "statement": "If a thread runs `alloc`/`get`/`leak` without interference and the request fits behind the current level, the call succeeds, placing the value at the first suitably aligned address; if it does not fit it reports exhaustion. (No spurious failures.)", "quantifier": "all slab states, layouts and addresses", "why_tests_cant": "Requires reasoning about all address residues and levels.", "anchors": ["static-alloc/src/bump.rs:try_alloc", "static-alloc/src/bump.rs:alloc", "static-alloc/src/bump.rs:get"]}
{"id": "C08", "title": "Allocation is wait-free", "statement": "Every call finishes within a number of its own steps bounded by a linear function of the slab size, whatever the other threads do and however they are scheduled; the retry loop cannot run forever.", "quantifier": "all schedules, including adversarial and infinite ones", "why_tests_cant": "Tests cannot establish termination under every scheduler.", "anchors": ["static-alloc/src/bump.rs:try_alloc"]}
{"id": "C09", "title": "A retry means another thread made progress", "statement": "An allocation attempt with the current level guess is only repeated because the level was changed by another successful allocation: between two attempts of one call, the level of the slab differs from the previous guess. So in every run, failed attempts are bounded by a constant per call plus successful allocations of others.", "quantifier": "all schedules", "why_tests_cant": "Statement about all interleavings.", "anchors": ["static-alloc/src/bump.rs:try_alloc", "static-alloc/src/bump.rs:bump"]}
{"id": "C10", "title": "The shared slab is linearizable", "statement": "Every concurrent history of calls to one `Bump` is linearizable with respect to the sequential bump-pointer specification (one number, the level): each call appears to take effect at one instant between its invocation and its response, with the result of the sequential specification.", "quantifier": "all numbers of threads, call sequences and interleavings", "why_tests_cant": "Linearizability quantifies over all concurrent histories.", "anchors": ["static-alloc/src/bump.rs:Bump", "static-alloc/src/bump.rs:try_alloc", "static-alloc/src/bump.rs:level", "static-alloc/src/bump.rs:get_at"]}
{"id": "C11", "title": "Leaked values and allocated bytes are isolated", "statement": "The bytes of an allocation change only by writes of the owner of that allocation: a value placed with leak/leak_at/leak_box keeps its bytes no matter which calls, writes to other allocations and failures happen concurrently on the same slab.", "quantifier": "all values, sizes, histories, interleavings of calls and of writes into owned allocations", "why_tests_cant": "Needs disjointness for all pairs of writes in all schedules.", "anchors": ["static-alloc/src/bump.rs:leak", "static-alloc/src/bump.rs:leak_at", "static-alloc/src/bump.rs:Allocation::leak", "static-alloc/src/bump.rs:Sync for Bump"]}
{"id": "C12", "title": "A failed leak gives the value back", "statement": "If `leak`/`leak_at` fails, the error contains the unchanged value and the true failure kind, no memory has been written and the slab's level was not changed by the call.", "quantifier": "all values, layouts, levels, slab states, interleavings", "why_tests_cant": "Requires all failure paths under all schedules.", "anchors": ["static-alloc/src/bump.rs:leak", "static-alloc/src/bump.rs:leak_at", "static-alloc/src/bump.rs:LeakError"]}
{"id": "C13", "title": "Zero-sized types never consume memory", "statement": "`get`/`leak` of a zero-sized type always succeed with a suitably aligned non-null pointer and never change the level, even on a full or zero-sized slab; `get_at`/`leak_at` of a zero-sized type succeed exactly if the given level equals the level observed, otherwise report that observed level, and never panic even for foreign levels.", "quantifier": "all zero-sized types (alignments), all slab states, levels and interleavings", "why_tests_cant": "All alignments/levels/schedules.", "anchors": ["static-alloc/src/bump.rs:get", "static-alloc/src/bump.rs:get_at", "static-alloc/src/bump.rs:zst_fake_alloc", "static-alloc/src/bump.rs:for_zst"]}
{"id": "C14", "title": "A slab of n values holds exactly n values", "statement": "A fresh `Bump<[V; n]>` (V not zero-sized) serves `V`-sized requests exactly n times, for any distribution of the requests on threads and any schedule: the number of successes never exceeds n, and a request only fails after n successes have been granted.", "quantifier": "all n, all sizes/alignments of V, all base addresses aligned for V, all schedules", "why_tests_cant": "All n and all schedules.", "anchors": ["static-alloc/src/bump.rs:Bump", "static-alloc/src/bump.rs:leak", "static-alloc/src/bump.rs:get"]}
{"id": "C15", "title": "Chained levels lay values out like a repr(C) struct", "statement": "Starting from a level L on a slab, consecutive `leak_at`/`get_at` calls passing on the returned level place the values at consecutive offsets of the repr(C) layout algorithm (each field at the next multiple of its alignment), provided base+L is aligned to the largest of the alignments; in particular equal-typed values are contiguous as array elements.", "quantifier": "all lists of layouts, all base addresses and levels, arbitrary interference by other threads (which can only cause failure)", "why_tests_cant": "All lists of layouts.", "anchors": ["static-alloc/src/bump.rs:leak_at", "static-alloc/src/bump.rs:Level"]}
{"id": "C16", "title": "reset makes the slab as good as new without touching bytes", "statement": "After `reset` (which needs exclusive access) the level is 0, the slab answers every continuation exactly like a fresh slab at the same address, and the stored bytes are unchanged.", "quantifier": "all prior histories and all continuations", "why_tests_cant": "Quantifies over all histories before and after.", "anchors": ["static-alloc/src/bump.rs:reset"]}
{"id": "C17", "title": "Reallocation preserves contents", "statement": "`LocalAlloc::realloc`/`GlobalAlloc::realloc` on a live allocation yields memory that satisfies the new layout, whose first min(old,new) bytes equal the old contents, which is either the same allocation or disjoint from every live allocation; other live allocations keep their bytes; on failure (None/null) the old allocation stays valid with unchanged bytes.", "quantifier": "all layouts old/new, all slab states and memory contents", "why_tests_cant": "All pairs of layouts, addresses and contents.", "anchors": ["static-alloc/src/bump.rs:LocalAlloc::realloc", "static-alloc/src/bump.rs:GlobalAlloc::realloc", "static-alloc/src/bump.rs:layout_reallocated"]}
{"id": "C18", "title": "The global-allocator interface never hands out the same memory twice", "statement": "For every sequence of alloc, dealloc, alloc_zeroed and realloc calls through `GlobalAlloc`, returned non-null pointers are aligned and in bounds, null is returned exactly if the request does not fit (or the new layout is invalid), blocks live at the same time are disjoint, and dealloc changes nothing observable.", "quantifier": "all call histories conforming to the GlobalAlloc contract", "why_tests_cant": "All histories.", "anchors": ["static-alloc/src/bump.rs:GlobalAlloc for Bump"]}
{"id": "C19", "title": "Zeroed allocation is zeroed", "statement": "`alloc_zeroed` returns memory in which all bytes of the requested size are 0 (also after a reset when the storage holds old data), and changes no byte outside of the returned block.", "quantifier": "all layouts, slab states, prior memory contents", "why_tests_cant": "All contents/addresses.", "anchors": ["alloc-traits/src/util.rs", "alloc-traits/src/local.rs:alloc_zeroed", "static-alloc/src/bump.rs:GlobalAlloc for Bump"]}
{"id": "C20", "title": "Consumption is exactly sizes plus alignment padding", "statement": "The level of a slab equals its starting level plus, for all allocations handed out since, the sizes plus paddings each smaller than the requested alignment; failed calls, ZST calls and observations consume nothing. Hence all requests succeed whose worst-case sizes (size+align-1) sum to at most the remaining capacity.", "quantifier": "all histories, interleavings, layouts", "why_tests_cant": "All histories.", "anchors": ["static-alloc/src/bump.rs:try_alloc_at", "static-alloc/src/bump.rs:bump"]}
{"id": "C21", "title": "Unsync bump: allocations are disjoint, in bounds, aligned", "statement": "For every sequence of operations on an unsync `MemBump` (alloc, alloc_at, get, get_at, bump_box, bump_array, level) all handed out non-empty regions since the last reset are pairwise disjoint, inside the data region and aligned, and the level is non-decreasing and at most the capacity.", "quantifier": "all capacities, addresses, operation sequences and layouts", "why_tests_cant": "All histories and addresses.", "anchors": ["static-alloc/src/unsync/bump.rs:try_alloc_at", "static-alloc/src/unsync/bump.rs:bump", "static-alloc/src/unsync/bump.rs:alloc", "static-alloc/src/unsync/bump.rs:get_at"]}
{"id": "C22", "title": "Unsync bump: panics are exactly the documented ones", "statement": "An unsync allocation call panics if and only if the layout is zero-sized (this includes the typed `get`, `get_at`, `bump_box` with zero-sized types, contrary to the sync variant) or the given level exceeds the capacity; in particular the `unreachable!` in the retry-free path and all unwraps are unreachable.", "quantifier": "all layouts, levels, states", "why_tests_cant": "All states.", "anchors": ["static-alloc/src/unsync/bump.rs:try_alloc", "static-alloc/src/unsync/bump.rs:try_alloc_at"]}
{"id": "C23", "title": "Unsync bump agrees with the sequential bump-pointer specification", "statement": "Each unsync operation returns exactly what the sequential specification of a bump pointer returns, in particular it succeeds iff the request fits behind the level, and allocation at a level fails with Mismatch iff the request fits behind the given level but the level is not current. A sync Bump used by one thread and an unsync bump at the same address behave identically on non-zero-sized layouts.", "quantifier": "all states, layouts, levels, operation sequences", "why_tests_cant": "All histories.", "anchors": ["static-alloc/src/unsync/bump.rs:try_alloc", "static-alloc/src/unsync/bump.rs:try_alloc_at", "static-alloc/src/bump.rs:try_alloc"]}
{"id": "C24", "title": "Borrowed memory can be used in full and recovered", "statement": "`MemBump::from_mem` succeeds exactly if the given bytes contain a suitably aligned place for the header (whatever their alignment and contents), the resulting bump starts empty at the first aligned address, its header and data lie completely in the given bytes with fewer than one header alignment of trailing bytes unused, and `into_mem` gives exactly the bytes of header and data back, from which `from_mem_unchecked` recovers the same bump with the same level.", "quantifier": "all addresses and lengths of the byte slice", "why_tests_cant": "All addresses/lengths.", "anchors": ["static-alloc/src/unsync/bump.rs:from_mem", "static-alloc/src/unsync/bump.rs:from_mem_unchecked", "static-alloc/src/unsync/bump.rs:from_aligned_mem", "static-alloc/src/unsync/bump.rs:into_mem", "static-alloc/src/unsync/bump.rs:layout_from_size"]}
{"id": "C25", "title": "A new heap bump starts empty", "statement": "A `MemBump` made by `MemBump::new(size)` has level 0 and capacity of at least `size`, whatever the heap memory contained before.", "quantifier": "all sizes and all prior contents of the heap block", "why_tests_cant": "Depends on the previous contents of recycled heap memory, which a test rarely controls.", "anchors": ["static-alloc/src/unsync/bump.rs:MemBump::new"]}
{"id": "C26", "title": "get_unchecked reacquires the earlier allocation", "statement": "If `get_at::<V>(level)` succeeded before, then `get_unchecked::<V>(level)` returns the same address again (as documented: it reacquires the allocation), so an aligned pointer in bounds, and neither changes the level nor invalidates other allocations.", "quantifier": "all levels, types and addresses meeting the precondition", "why_tests_cant": "All addresses and levels.", "anchors": ["static-alloc/src/unsync/bump.rs:get_unchecked"]}
{"id": "C27", "title": "A typed unsync Bump provides its advertised capacity", "statement": "A `Bump<T>` used through its dereference to `MemBump` provides exactly size_of T bytes, at a data region aligned for T and inside of the Bump object, so that a `T` can be allocated in it.", "quantifier": "all T (sizes and alignments), all targets (pointer widths)", "why_tests_cant": "Depends on target and over-aligned types.", "anchors": ["static-alloc/src/unsync/bump.rs:Bump", "static-alloc/src/unsync/bump.rs:Deref for Bump", "static-alloc/src/unsync/bump.rs:layout_from_size"]}
{"id": "C28", "title": "Array and box allocation in the unsync bump", "statement": "`bump_array::<T>(n)` gives a region of exactly n*size_of T bytes aligned for T if that fits (and never an overflown shorter one), otherwise Exhausted; `bump_box` allocates at the current level and never fails with Mismatch; neither panics.", "quantifier": "all n up to usize::MAX, all element layouts, all states", "why_tests_cant": "Overflow corner cases over all n.", "anchors": ["static-alloc/src/unsync/bump.rs:bump_array", "static-alloc/src/unsync/bump.rs:bump_box"]}
{"id": "C29", "title": "Alloca always provides the requested slice", "statement": "`Alloca::new(len)` followed by `run` calls the closure with a slice of exactly `len` properly aligned elements in memory of the call frame (an object less than twice as large as needed, or of one word), for every len whose padded size is at most the largest supported stack size, and otherwise reports an error/panics before the closure runs.", "quantifier": "all lengths, all element layouts, all stack addresses", "why_tests_cant": "The frame address varies between runs; all lengths and alignments.", "anchors": ["static-alloc/src/leaked.rs:Alloca::new", "static-alloc/src/leaked.rs:Alloca::run", "static-alloc/src/leaked.rs:Alloca::run_with", "static-alloc/src/leaked.rs:padded_layout"]}
{"id": "C30", "title": "Chains free every link exactly once", "statement": "For every sequence of Chain constructions, `chain` splices and drops, every heap link is freed exactly once, with the same layout it was allocated with, no link is used after being freed, and when all chains are dropped no link remains allocated (no leak), with no recursion proportional to the length.", "quantifier": "all histories of chain operations, all lengths of chains", "why_tests_cant": "All histories and lengths.", "anchors": ["static-alloc/src/unsync/chain.rs:Chain::new", "static-alloc/src/unsync/chain.rs:chain", "static-alloc/src/unsync/chain.rs:Drop for Chain", "static-alloc/src/unsync/chain.rs:Drop for Link", "static-alloc/src/unsync/chain.rs:Link::set_next"]}
{"id": "C31", "title": "Allocations from a chain are disjoint and keep valid when chains are joined", "statement": "Values allocated by `bump_box` from any link of a chain live in the memory of that link, pairwise disjoint and aligned; joining chains neither moves nor frees the links reachable from the joined result, and allocation continues in the new front.", "quantifier": "all histories of allocation and joining", "why_tests_cant": "All histories.", "anchors": ["static-alloc/src/unsync/chain.rs:bump_box", "static-alloc/src/unsync/chain.rs:chain"]}
{"id": "C32", "title": "Chain capacities are those of the front link", "statement": "`capacity` and `remaining_capacity` of a chain: documented as the total, they return the capacity/remaining of the front link only; the remaining capacity never exceeds the capacity and decreases by at least the size of every value allocated.", "quantifier": "all chains and histories", "why_tests_cant": "All histories.", "anchors": ["static-alloc/src/unsync/chain.rs:capacity", "static-alloc/src/unsync/chain.rs:remaining_capacity"]}
{"id": "C33", "title": "LeakBox drops its value exactly once", "statement": "For every sequence of operations on LeakBoxes (create, deref, write, take, into_raw, from_raw, leak, from_mut, assume_init, drop) each value moved into a LeakBox is, after all handles are gone, either dropped exactly once, or moved out exactly once (take), or explicitly leaked (leak/into_raw), never dropped twice and never dropped while still readable through a handle.", "quantifier": "all operation sequences and values", "why_tests_cant": "All histories.", "anchors": ["static-alloc/src/leaked.rs:LeakBox", "static-alloc/src/leaked.rs:LeakBox::take", "static-alloc/src/leaked.rs:LeakBox::leak", "static-alloc/src/leaked.rs:Drop for LeakBox", "static-alloc/src/leaked.rs:LeakBox::into_raw"]}
{"id": "C34", "title": "Exit stack drops values exactly once in reverse order", "statement": "For every history of set/slot+pin/pin_local/pop_all and final drop of an ExitStack in which no destructor panics, every value set is dropped exactly once, in the reverse order of being set, at pop_all or when the stack is dropped.", "quantifier": "all histories of pushes and pops, any number of values", "why_tests_cant": "All histories.", "anchors": ["exit-stack/src/lib.rs:ExitStack::set", "exit-stack/src/lib.rs:pop_all", "exit-stack/src/lib.rs:inner", "exit-stack/src/lib.rs:Drop for ExitStack"]}
{"id": "C35", "title": "A pinned value's memory is not reused before its destructor ran", "statement": "Slots of values that have not been dropped are never handed out or overwritten again (the pin guarantee), across slot, set, pop_all and drop; stale data of dropped values is never accessed.", "quantifier": "all histories", "why_tests_cant": "All histories.", "anchors": ["exit-stack/src/lib.rs:slot", "exit-stack/src/lib.rs:set", "exit-stack/src/lib.rs:pin", "exit-stack/src/lib.rs:pop_all"]}
{"id": "C36", "title": "A panicking destructor does not lose the remaining values", "statement": "When the destructor of a value in an ExitStack panics while the stack is being unwound, the destructors of all remaining values still run before their memory is released (documented intent of the unwind flag).", "quantifier": "all stacks and all sets of panicking destructors", "why_tests_cant": "All panic positions.", "anchors": ["exit-stack/src/lib.rs:inner", "exit-stack/src/lib.rs:pop_all"]}
{"id": "C37", "title": "set on a fresh exit stack never fails", "statement": "`ExitStack::set` never panics: since it clears the stack first there is always room for the slot, for every slot type and target.", "quantifier": "all slot types (sizes/alignments), all targets, all histories", "why_tests_cant": "All alignments and targets.", "anchors": ["exit-stack/src/lib.rs:set", "exit-stack/src/lib.rs:slot"]}
{"id": "C38", "title": "Uninit views stay within their memory", "statement": "Starting from an Uninit over some memory, every view derived by any chain of cast, cast_slice, split_at, split_first, split_last, split_at_byte, split_layout, split_to_fit, split_cast, split_slice, shrink_to_fit covers only bytes of the original memory.", "quantifier": "all addresses, lengths, element layouts and derivation sequences", "why_tests_cant": "All derivations and layouts.", "anchors": ["without-alloc/src/uninit.rs:Uninit", "without-alloc/src/uninit.rs:UninitView"]}
{"id": "C39", "title": "Splitting yields disjoint parts that together are the whole", "statement": "`split_at(i)` on a slice view succeeds iff i <= capacity, then the front holds exactly i elements, and front and back are disjoint, adjacent and together cover the same bytes; same for split_first, split_last; `split_at_byte(n)` does this for bytes.", "quantifier": "all positions (up to usize::MAX), all element layouts and lengths", "why_tests_cant": "All positions/layouts incl. overflow.", "anchors": ["without-alloc/src/uninit.rs:split_at", "without-alloc/src/uninit.rs:split_at_byte", "without-alloc/src/uninit.rs:split_first", "without-alloc/src/uninit.rs:split_last"]}
{"id": "C40", "title": "A view only grants writes of types that fit", "statement": "`cast::<U>` succeeds exactly if the region is aligned and large enough for a U, and returns the region at the same address; `cast_slice::<U>` exactly if aligned, and has capacity floor(len/size); on failure the original view is handed back unchanged.", "quantifier": "all regions, all types", "why_tests_cant": "All addresses/layouts.", "anchors": ["without-alloc/src/uninit.rs:cast", "without-alloc/src/uninit.rs:cast_slice", "without-alloc/src/uninit.rs:fits", "without-alloc/src/uninit.rs:capacity"]}
{"id": "C41", "title": "split_layout/split_cast carve out an aligned sub-region when one fits", "statement": "`split_layout(l)` on a view with enough room for layout l after aligning returns an aligned sub-region and leaves the rest in place; it fails only if there is not enough room.", "quantifier": "all addresses, lengths and layouts", "why_tests_cant": "All address residues.", "anchors": ["without-alloc/src/uninit.rs:split_layout", "without-alloc/src/uninit.rs:split_cast", "without-alloc/src/uninit.rs:split_slice"]}
{"id": "C42", "title": "The slice seen through a view matches its capacity", "statement": "For a slice view, the slice pointer/references it gives out (as_ptr, as_mut_ptr, into_mut, as_ref) never cover more elements than its capacity, also after splitting.", "quantifier": "all derivation sequences", "why_tests_cant": "All derivation sequences.", "anchors": ["without-alloc/src/uninit.rs:split_at", "without-alloc/src/uninit.rs:as_ptr", "without-alloc/src/uninit.rs:into_mut", "without-alloc/src/uninit.rs:shrink_to_fit"]}
{"id": "C43", "title": "Conversion between Uninit and MaybeUninit is lossless", "statement": "from_maybe_uninit/into_maybe_uninit(_slice), from_memory and casts keep address and extent; converting back and forth gives the same region; shrink_to_fit removes only the bytes not usable for the type and is idempotent.", "quantifier": "all types, addresses and lengths", "why_tests_cant": "All layouts.", "anchors": ["without-alloc/src/uninit.rs:from_maybe_uninit", "without-alloc/src/uninit.rs:into_maybe_uninit", "without-alloc/src/uninit.rs:shrink_to_fit"]}
{"id": "C44", "title": "FixedVec behaves like a bounded list", "statement": "Every sequence of push, pop, truncate, clear, fill, extend, indexing, drain, split and (within its safety conditions) set_len operations on a FixedVec returns what the same sequence on a mathematical list of bounded length returns; push fails exactly if len == capacity and then returns the value unchanged.", "quantifier": "all operation sequences, element types (also zero-sized), capacities", "why_tests_cant": "All histories.", "anchors": ["without-alloc/src/fixed_vec.rs:push", "without-alloc/src/fixed_vec.rs:pop", "without-alloc/src/fixed_vec.rs:truncate", "without-alloc/src/fixed_vec.rs:fill", "without-alloc/src/fixed_vec.rs:drain", "without-alloc/src/fixed_vec.rs:set_len"]}
{"id": "C45", "title": "FixedVec drops each element exactly once", "statement": "Every element moved into a FixedVec is either handed out exactly once (pop, drain) or dropped exactly once (truncate, clear, dropping the vector or drain, split), never both, never twice, and never lost when no destructor panics.", "quantifier": "all operation sequences, all panicking-free destructors", "why_tests_cant": "All histories.", "anchors": ["without-alloc/src/fixed_vec.rs:truncate", "without-alloc/src/fixed_vec.rs:Drop for FixedVec", "without-alloc/src/fixed_vec.rs:Drop for Drain"]}
{"id": "C46", "title": "FixedVec is panic safe", "statement": "If the destructor of an element panics during truncate/clear, or during the drop, no element is dropped twice and the vector afterwards contains exactly a prefix of initialised elements.", "quantifier": "all vectors, truncation lengths and sets of elements with panicking destructors", "why_tests_cant": "All panic positions.", "anchors": ["without-alloc/src/fixed_vec.rs:truncate", "without-alloc/src/fixed_vec.rs:SetLenOnDrop"]}
{"id": "C47", "title": "Drain removes exactly the range", "statement": "`drain(range)` yields exactly the elements of the range, in order from both ends, and after the drain is dropped at any point of iteration the vector contains the elements before and after the range in order; the not yielded elements of the range are dropped once; it panics exactly if the range is out of bounds; if the drain is forgotten the vector holds only the elements before the range; the sizes that the drain reports are exact.", "quantifier": "all vectors, ranges (all bound kinds) and numbers of next/next_back calls", "why_tests_cant": "All ranges/interleavings of next and next_back.", "anchors": ["without-alloc/src/fixed_vec.rs:drain", "without-alloc/src/fixed_vec.rs:Drain::next", "without-alloc/src/fixed_vec.rs:Drain::next_back", "without-alloc/src/fixed_vec.rs:Drop for Drain"]}
{"id": "C48", "title": "Splitting a FixedVec's capacity", "statement": "`split_borrowed`, `split_and_shrink_to` and `shrink_to_fit` keep all elements in place, and the spare memory they return is disjoint from the memory of the elements and the vector can still hold exactly the stated capacity.", "quantifier": "all lengths/capacities, element layouts", "why_tests_cant": "All layouts.", "anchors": ["without-alloc/src/fixed_vec.rs:split_borrowed", "without-alloc/src/fixed_vec.rs:split_and_shrink_to", "without-alloc/src/fixed_vec.rs:shrink_to_fit"]}
{"id": "C49", "title": "fill takes exactly as many items as fit", "statement": "`FixedVec::fill(iter)` appends items of the iterator in order until full or the iterator ends; it does not take an item from the iterator that it cannot store, and returns the remaining iterator; Extend panics rather than dropping items silently.", "quantifier": "all iterators (also infinite), capacities", "why_tests_cant": "All iterators.", "anchors": ["without-alloc/src/fixed_vec.rs:fill", "without-alloc/src/fixed_vec.rs:Extend for FixedVec"]}
{"id": "C50", "title": "A FixedVec over unaligned memory uses it", "statement": "`FixedVec::from_unaligned(region)` gives a vector with room for every element that can be placed aligned in the region, at addresses inside the region.", "quantifier": "all addresses, lengths, element layouts", "why_tests_cant": "All address residues.", "anchors": ["without-alloc/src/fixed_vec.rs:from_unaligned"]}
{"id": "C51", "title": "Box over borrowed memory drops once", "statement": "For each sequence of operations on `without_alloc::Box` (new, deref, into_inner/take, into_raw, from_raw, leak, drop) the value is dropped exactly once or moved out exactly once or leaked, and never accessed afterwards.", "quantifier": "all operation sequences", "why_tests_cant": "All histories.", "anchors": ["without-alloc/src/boxed.rs:Box", "without-alloc/src/boxed.rs:Box::take", "without-alloc/src/boxed.rs:Drop for Box"]}
{"id": "C52", "title": "Rc counts match the handles", "statement": "In every sequence of clone, downgrade, upgrade, drop, try_unwrap, into_raw/from_raw on one Rc allocation, strong_count is the number of strong handles and weak_count the number of Weak handles, plus one (as documented) while strong handles exist, as long as counts stay below usize::MAX.", "quantifier": "all operation histories over any number of handles", "why_tests_cant": "All histories.", "anchors": ["without-alloc/src/rc.rs:Rc::clone", "without-alloc/src/rc.rs:Rc::downgrade", "without-alloc/src/rc.rs:Weak::upgrade", "without-alloc/src/rc.rs:Drop for Rc", "without-alloc/src/rc.rs:Drop for Weak", "without-alloc/src/rc.rs:strong_count", "without-alloc/src/rc.rs:weak_count"]}
{"id": "C53", "title": "The Rc value is dropped exactly when the last strong handle goes", "statement": "The contained value is dropped exactly once, when the last strong handle is dropped, or moved out exactly once by try_unwrap of a unique strong handle; it is never accessible afterwards (upgrade returns None), and always accessible before.", "quantifier": "all histories", "why_tests_cant": "All histories.", "anchors": ["without-alloc/src/rc.rs:Drop for Rc", "without-alloc/src/rc.rs:try_unwrap", "without-alloc/src/rc.rs:upgrade"]}
{"id": "C54", "title": "Mutable access to an Rc value is exclusive", "statement": "`get_mut` returns a reference only if the handle is the only handle (strong and weak) of the allocation.", "quantifier": "all histories", "why_tests_cant": "All histories.", "anchors": ["without-alloc/src/rc.rs:get_mut", "without-alloc/src/rc.rs:is_unique"]}
{"id": "C55", "title": "The memory of an Rc is released only once, to the last handle", "statement": "`Weak::try_unwrap`/`Rc::try_unwrap` give back the memory only when no other handle remains that could access it, at most one handle ever gets it, and while the value's destructor still runs it is not given back.", "quantifier": "all histories, also destructors that re-enter the Rc API through a stored Weak", "why_tests_cant": "Re-entrant destructors; all histories.", "anchors": ["without-alloc/src/rc.rs:Weak::try_unwrap", "without-alloc/src/rc.rs:Rc::try_unwrap", "without-alloc/src/rc.rs:Drop for Rc"]}
{"id": "C56", "title": "Rc raw pointers round-trip", "statement": "`Rc::into_raw` gives a pointer to the value inside of the allocation, `from_raw` of it gives a handle to the same allocation with unchanged counts; `Rc::layout` describes memory in which value and counters lie without overlap, for every value layout.", "quantifier": "all value layouts and targets", "why_tests_cant": "All layouts.", "anchors": ["without-alloc/src/rc.rs:into_raw", "without-alloc/src/rc.rs:from_raw", "without-alloc/src/rc.rs:Rc::layout", "without-alloc/src/rc.rs:RcBox"]}
{"id": "C57", "title": "Rc count overflow is not exploitable", "statement": "Cloning and forgetting handles any number of times never makes a count wrap to a smaller value, so that the value is never dropped while handles exist.", "quantifier": "all histories incl. those with usize::MAX forgotten handles", "why_tests_cant": "A test cannot run 2^64 clones.", "anchors": ["without-alloc/src/rc.rs:inc_strong", "without-alloc/src/rc.rs:inc_weak"]}
{"id": "C58", "title": "LocalAlloc extension methods never hit their unwraps", "statement": "`alloc_t`, `boxed`, `rc`, `fixed_vec`, `copy_slice`, `copy_str` for any allocator fulfilling the LocalAlloc contract return None exactly if the allocator cannot serve the needed layout or the layout does not exist, and never panic.", "quantifier": "all allocators fulfilling the contract, all types, lengths", "why_tests_cant": "All allocators.", "anchors": ["without-alloc/src/alloc.rs:alloc_t", "without-alloc/src/alloc.rs:boxed", "without-alloc/src/alloc.rs:rc", "without-alloc/src/alloc.rs:fixed_vec", "without-alloc/src/alloc.rs:copy_slice"]}
{"id": "C59", "title": "copy_slice and copy_str return an equal copy", "statement": "`copy_slice(s)` returns a slice equal to s, located in memory of the allocator disjoint from s, and s is unchanged; `copy_str` returns an equal string.", "quantifier": "all slices (element layouts, also zero-sized), contents", "why_tests_cant": "All contents/types.", "anchors": ["without-alloc/src/alloc.rs:copy_slice", "without-alloc/src/alloc.rs:copy_str"]}
{"id": "C60", "title": "fixed_vec allocates the requested capacity", "statement": "`fixed_vec::<V>(n)` returns an empty FixedVec with capacity at least n (exactly n for an allocator that returns exact layouts; unlimited for zero-sized V) in memory of the allocator.", "quantifier": "all n, element layouts, allocators", "why_tests_cant": "All n incl. overflow.", "anchors": ["without-alloc/src/alloc.rs:fixed_vec"]}
{"id": "C61", "title": "Default realloc and alloc_zeroed of LocalAlloc are correct for every allocator", "statement": "For every allocator fulfilling the alloc/dealloc contract of `LocalAlloc`, the provided default `realloc` preserves min(old,new) bytes, deallocates the old block only on success, leaves it untouched on failure, and the default `alloc_zeroed` zeroes exactly the block.", "quantifier": "all contract-fulfilling allocators, layouts, contents", "why_tests_cant": "Quantifies over all implementations.", "anchors": ["alloc-traits/src/util.rs", "alloc-traits/src/local.rs"]}
{"id": "C62", "title": "NonZeroLayout is exactly the layouts of non-zero size", "statement": "`NonZeroLayout::from_layout`/`new` succeed exactly for layouts/types of non-zero size and keep size and alignment, conversion to Layout and back is the identity.", "quantifier": "all layouts", "why_tests_cant": "All layouts.", "anchors": ["alloc-traits/src/layout.rs"]}
{"id": "C63", "title": "Filling does not lose items", "statement": "For Vec, VecDeque, Option and () and every other well-behaved container: the items taken from the iterator are exactly the items stored, in order, at most as many as there is room (no reallocation); what is left in the iterator of fill_and_keep_tail continues exactly after them; a full container takes nothing; fill_count returns the number of items stored.", "quantifier": "all iterators (also infinite) and containers", "why_tests_cant": "All iterators.", "anchors": ["fill/src/fill.rs:Fill", "fill/src/fill.rs:fill_count", "fill/src/fill.rs:fill_and_keep_tail"]}
{"id": "C64", "title": "checked_fill tells whether the iterator ran out", "statement": "`checked_fill` returns None exactly if the iterator ended before the container was full; otherwise it returns the remaining iterator, which continues exactly with the first item that was not stored. A container that is already full never polls the iterator.", "quantifier": "all iterators (also non-fused and infinite) and well-behaved containers", "why_tests_cant": "All iterators.", "anchors": ["fill/src/fill.rs:checked_fill"]}
{"id": "C65", "title": "Filling an Option or Result", "statement": "Filling an `Option` takes at most one item, and none if it is Some. Filling a `Result` stores Ok-items in the inner container until the first Err, which replaces the Result; once the inner container is full no further items are consumed.", "quantifier": "all iterators, all initial containers", "why_tests_cant": "All iterators incl. infinite.", "anchors": ["fill/src/fill.rs:Fill for Option", "fill/src/fill.rs:Fill for Result"]}
{"id": "C66", "title": "Filling slices overwrites a prefix", "statement": "Filling through a `slice::IterMut` overwrites the first min(n, items) elements in order and leaves the rest unchanged; elements and items are matched one to one, none skipped.", "quantifier": "all slices, iterators", "why_tests_cant": "All iterators.", "anchors": ["fill/src/fill.rs:Fill for IterMut"]}
{"id": "C67", "title": "Unsizing keeps the pointee and adds the right metadata", "statement": "`unsize`/`unsize_with` on any CoerciblePtr container gives a pointer of the same address with the metadata the coercion provides (the array length for slices, the vtable of the source type for trait objects); for owning containers the ownership moves unchanged (no drop, no count change).", "quantifier": "all addresses, lengths, coercions satisfying the contract", "why_tests_cant": "All coercions.", "anchors": ["unsize/src/lib.rs:unsize", "unsize/src/lib.rs:CoerciblePtr", "unsize/src/lib.rs:Coercion", "without-alloc/src/boxed.rs:CoerciblePtr for Box", "without-alloc/src/rc.rs:CoerciblePtr for Rc", "without-alloc/src/uninit.rs:CoerciblePtr for Uninit"]}
{"id": "C68", "title": "copy_dst copies a dynamically sized value", "statement": "`copy_dst(v)` (nightly feature) for any value of any layout returns a reference with the metadata of v that is aligned for the value and refers to a copy of its bytes in memory of the allocator; v is unchanged; it returns None exactly if the allocator fails and never panics.", "quantifier": "all layouts (also zero-sized), contents, metadata, allocators", "why_tests_cant": "All layouts and allocators.", "anchors": ["without-alloc/src/alloc.rs:copy_dst"]}
{"id": "C69", "title": "Unsizing keeps the provenance", "statement": "The pointer that `unsize` returns may be used for the same accesses as the original one (for references and Box: to the value; for raw pointers, NonNull, Rc, Arc, Weak, Uninit, UninitView and without_alloc::Box: to all memory the original may access), and using the original afterwards is as valid as before.", "quantifier": "all pointer kinds (also pinned ones), addresses, borrow states, coercions satisfying the contract", "why_tests_cant": "Undefined behaviour of pointers is not observable by tests.", "anchors": ["unsize/src/lib.rs:unsize", "unsize/src/lib.rs:unsize_with", "unsize/src/lib.rs:CoerciblePtr for Pin", "without-alloc/src/boxed.rs:CoerciblePtr for Box", "without-alloc/src/uninit.rs:CoerciblePtr for Uninit"]}
{"id": "C70", "title": "A multi-threaded program gets disjoint blocks from the global allocator", "statement": "With any number of threads calling alloc, alloc_zeroed, realloc and dealloc of a static Bump (and its other methods) at the same time, the blocks the program owns are at every moment pairwise disjoint, not null, aligned, and inside the storage; no call panics or is undefined behaviour; a zeroed block is still zero when it is returned, and null is only returned when the request does not fit.", "quantifier": "all numbers of threads, all schedules of single steps, all programs that follow the contract of GlobalAlloc", "why_tests_cant": "All interleavings.", "anchors": ["static-alloc/src/bump.rs:GlobalAlloc for Bump", "static-alloc/src/bump.rs:LocalAlloc for Bump", "static-alloc/src/bump.rs:try_alloc"]}
{"id": "C71", "title": "The contents of a block belong to its owner", "statement": "A block which the program owns keeps its bytes as long as the program itself does not write to it, whatever calls other threads are running on the allocator; what the program wrote is what it reads.", "quantifier": "all schedules, all blocks, all contents", "why_tests_cant": "All interleavings.", "anchors": ["static-alloc/src/bump.rs:GlobalAlloc for Bump"]}
{"id": "C72", "title": "realloc is correct under contention", "statement": "realloc called while other threads use the allocator returns either null, and the old block is unchanged and still owned by the caller, or a block of the new size whose contents start with the old contents; it fails only if the new size is no valid layout or does not fit; a block that does not grow stays in place.", "quantifier": "all schedules between call and return, all blocks and sizes", "why_tests_cant": "All interleavings.", "anchors": ["static-alloc/src/bump.rs:GlobalAlloc for Bump::realloc", "static-alloc/src/bump.rs:LocalAlloc for Bump::realloc"]}
{"id": "C73", "title": "The global allocator is wait-free", "statement": "Every call of GlobalAlloc returns after a bounded number of steps of the calling thread (linear in the size of the storage and in the bytes to zero or to copy), whatever the other threads do.", "quantifier": "all schedules, fair or not", "why_tests_cant": "All interleavings.", "anchors": ["static-alloc/src/bump.rs:GlobalAlloc for Bump", "static-alloc/src/bump.rs:alloc", "static-alloc/src/bump.rs:try_alloc"]}
{"id": "C74", "title": "The global allocator has no data races", "statement": "No two threads inside of the allocator ever access the same byte without synchronization at the same time if one of the accesses is a write, and none of them accesses memory the program owns at that time.", "quantifier": "all reachable states of all schedules", "why_tests_cant": "Races are not observable by tests.", "anchors": ["static-alloc/src/bump.rs:GlobalAlloc for Bump", "static-alloc/src/bump.rs:LocalAlloc for Bump::realloc"]}
{"id": "C75", "title": "A FixedVec touches only its memory", "statement": "Every operation of a FixedVec writes only to the memory its buffer covers; a history of operations of any number of vectors changes only memory that was given to `new`; and nothing observable (results, elements, order of drops, panics) depends on what the given memory contained before.", "quantifier": "all histories, all contents of memory, all addresses outside", "why_tests_cant": "Stray writes are only noticed if a test looks at that address.", "anchors": ["without-alloc/src/fixed_vec.rs:FixedVec::push", "without-alloc/src/fixed_vec.rs:FixedVec::pop", "without-alloc/src/fixed_vec.rs:FixedVec::truncate", "without-alloc/src/fixed_vec.rs:FixedVec::fill", "without-alloc/src/fixed_vec.rs:Drop for Drain"]}
{"id": "C76", "title": "Comparison and hashing see the elements only", "statement": "Comparing or hashing two FixedVecs gives what comparing and hashing their slices gives: lexicographic, independent of capacity and memory; equal vectors hash equally and a vector can be looked up by its slice. Comparing and hashing Box and Rc is comparing and hashing the values.", "quantifier": "all contents, all (also unlawful) methods of the element type", "why_tests_cant": "All contents and orders.", "anchors": ["without-alloc/src/fixed_vec.rs:PartialEq for FixedVec", "without-alloc/src/fixed_vec.rs:PartialOrd for FixedVec", "without-alloc/src/fixed_vec.rs:Ord for FixedVec", "without-alloc/src/fixed_vec.rs:Hash for FixedVec", "without-alloc/src/boxed.rs:PartialOrd for Box", "without-alloc/src/rc.rs:PartialOrd for Rc"]}
{"id": "C77", "title": "Drain is an exact, fused, double-ended iterator", "statement": "At every moment `size_hint`, `len` and `as_slice` of a Drain agree with the number and the order of the items that it will still yield, whichever ends they are taken from; after the last one it yields None forever. An element replaced through `as_mut_slice` is yielded replaced, and the caller gets the old one.", "quantifier": "all vectors, ranges and sequences of next, next_back and replacements", "why_tests_cant": "All interleavings of both ends.", "anchors": ["without-alloc/src/fixed_vec.rs:Iterator for Drain", "without-alloc/src/fixed_vec.rs:DoubleEndedIterator for Drain", "without-alloc/src/fixed_vec.rs:ExactSizeIterator for Drain", "without-alloc/src/fixed_vec.rs:Drain::as_slice", "without-alloc/src/fixed_vec.rs:Drain::as_mut_slice"]}
{"id": "C78", "title": "A failed Chain::new has no effect and reports the size", "statement": "`Chain::new(size)` either gives a chain of exactly this capacity, all of it remaining, or it changes nothing and returns an error whose `allocation_size` is the size that the heap refused (capacity plus bookkeeping, rounded up), or the requested capacity if no layout of that size exists; the latter happens exactly for capacities that do not fit into a layout.", "quantifier": "all sizes, all answers of the heap, all reachable states", "why_tests_cant": "Layout overflow and heap failure are not reachable by tests.", "anchors": ["static-alloc/src/unsync/chain.rs:Chain::new", "static-alloc/src/unsync/chain.rs:TryNewError::allocation_size", "static-alloc/src/unsync/chain.rs:Link::alloc", "static-alloc/src/unsync/chain.rs:Link::layout_from_size"]}
{"id": "C79", "title": "Fresh memory is as the storage was; a zeroed Bump hands out zeros", "statement": "Memory returned by an allocation (that stores no value itself) contains the bytes the storage had at the start (or at the last reset), in particular every allocation of a `Bump::zeroed()`, sync or unsync, is zero until the bump is reset; after a reset old bytes can show up.", "quantifier": "all schedules, all layouts, all writes of the owners of other blocks", "why_tests_cant": "All interleavings and histories.", "anchors": ["static-alloc/src/bump.rs:Bump::zeroed", "static-alloc/src/unsync/bump.rs:Bump::zeroed", "static-alloc/src/bump.rs:try_alloc", "static-alloc/src/unsync/bump.rs:try_alloc_at"]}
{"id": "C80", "title": "Objects from one allocator do not interfere", "statement": "A program that makes boxes, Rcs, vectors, copies and raw allocations from one LocalAlloc in any order never panics in doing so; all its objects are disjoint, a new object holds the value given (or the copy) and fits its layout, and an object stays where it is and keeps its bytes until its owner writes to it, whatever the program does with the others.", "quantifier": "all allocators that fulfil the contract of LocalAlloc (in particular every Bump), all histories of calls and writes", "why_tests_cant": "All histories and all allocators.", "anchors": ["without-alloc/src/alloc.rs:LocalAllocLeakExt::boxed", "without-alloc/src/alloc.rs:LocalAllocLeakExt::rc", "without-alloc/src/alloc.rs:LocalAllocLeakExt::fixed_vec", "without-alloc/src/alloc.rs:LocalAllocLeakExt::copy_slice", "without-alloc/src/alloc.rs:LocalAllocLeakExt::alloc_layout", "static-alloc/src/bump.rs:LocalAlloc for Bump"]}
{"id": "C81", "title": "Reference counting works on the bytes of the memory", "statement": "Started on memory with any contents, with values of any size and alignment, Rc and Weak keep the value and the two counters in their block of memory so that every call answers as if there were no memory at all: a read through a handle gives exactly the bytes last stored, the counter words are the numbers of handles that exist, and a call writes to no byte outside of its own block.", "quantifier": "all contents of the memory, all value types, all placements of the blocks, all histories of calls and of raw writes to released memory", "why_tests_cant": "All histories over all memories and layouts.", "anchors": ["without-alloc/src/rc.rs:Rc::new", "without-alloc/src/rc.rs:RcBox", "without-alloc/src/rc.rs:inc_strong", "without-alloc/src/rc.rs:dec_strong", "without-alloc/src/rc.rs:inc_weak", "without-alloc/src/rc.rs:dec_weak", "without-alloc/src/rc.rs:as_ptr", "without-alloc/src/rc.rs:try_unwrap", "without-alloc/src/rc.rs:into_raw"]}
{"id": "C82", "title": "FixedVec works on the bytes of its memory", "statement": "On memory with any contents, vectors whose elements are stored as their bytes answer every history of calls as lists of values would, and run the same destructors in the same order; the bytes of a vector are those of its elements one after the other from its start, and no call changes a byte outside of the memory of the vector it is called on.", "quantifier": "all contents of the memory, all element types (also zero-sized), all histories of calls on any number of vectors and drains, also with panicking destructors and iterators", "why_tests_cant": "All histories over all memories and layouts.", "anchors": ["without-alloc/src/fixed_vec.rs:push", "without-alloc/src/fixed_vec.rs:pop", "without-alloc/src/fixed_vec.rs:fill", "without-alloc/src/fixed_vec.rs:extend", "without-alloc/src/fixed_vec.rs:truncate", "without-alloc/src/fixed_vec.rs:drain", "without-alloc/src/fixed_vec.rs:Drain::drop", "without-alloc/src/fixed_vec.rs:split_borrowed", "without-alloc/src/fixed_vec.rs:Drop"]}
{"id": "C83", "title": "Boxes in a bump hold their own values", "statement": "A program that makes LeakBoxes in one unsync bump (bump_box, get and boxed), writes, reads, replaces, takes, leaks and drops them and resets the bump when no box is left, on memory with any contents: every box reads back the value last put into it, whatever is done with other boxes and the bump; boxes are disjoint, aligned and inside of the bump; destructors run on exactly the values that were put in, each value is dropped or handed out at most as often as it was moved in, and exactly as often if nothing is leaked; no byte outside of the bump is written.", "quantifier": "all contents of the memory, all types, all programs permitted by types and borrows, also with panicking destructors", "why_tests_cant": "All histories, over all memories, addresses and layouts.", "anchors": ["static-alloc/src/unsync/bump.rs:MemBump::bump_box", "static-alloc/src/unsync/bump.rs:MemBump::get", "static-alloc/src/unsync/bump.rs:MemBump::reset", "static-alloc/src/bump.rs:Allocation::boxed", "static-alloc/src/leaked.rs:LeakBox::write", "static-alloc/src/leaked.rs:LeakBox::take", "static-alloc/src/leaked.rs:LeakBox::leak", "static-alloc/src/leaked.rs:LeakBox::into_raw", "static-alloc/src/leaked.rs:LeakBox::from_raw", "static-alloc/src/leaked.rs:Drop for LeakBox"]}
{"id": "C84", "title": "Chains survive whatever is written to their values", "statement": "On memory with any contents, where the links of chains keep their pointers and counters next to the values, and freed memory is overwritten: programs that make, join, use and drop chains in any order, writing anything to their values and to other memory, never follow a pointer that is not of an allocated link and never free anything twice; each call answers as if chains were plain lists of slabs; following the pointers in memory finds exactly these slabs; nothing else is allocated, and nothing when all chains are gone; borrowed values are apart from all pointers and counters and keep their bytes.", "quantifier": "all contents of the memory, all answers of the heap, all programs permitted by types and borrows, chains of any length", "why_tests_cant": "All histories over all memories; a corrupted pointer shows up only in special layouts.", "anchors": ["static-alloc/src/unsync/chain.rs:Chain::new", "static-alloc/src/unsync/chain.rs:Chain::chain", "static-alloc/src/unsync/chain.rs:Chain::bump_box", "static-alloc/src/unsync/chain.rs:Link::set_next", "static-alloc/src/unsync/chain.rs:Link::take_next", "static-alloc/src/unsync/chain.rs:Link::alloc", "static-alloc/src/unsync/chain.rs:Drop for Chain", "static-alloc/src/unsync/chain.rs:Drop for Link"]}
{"id": "C85", "title": "The exit stack works in the bytes of its memory", "statement": "On memory with any contents, where the links between pinned values are fat pointers stored next to the values, and destructors change the bytes of the value they run on: programs that take slots, pin values of any types, write to pinned values, set, pop_all and drop the stack never follow a pointer to a value whose destructor was begun; every call answers as if the stack were a list of values; a pinned value stays at its aligned address, apart from all other slots and from the stack's own fields, and keeps its bytes until it is written to or the stack is cleared; clearing runs the destructors, last pinned first, on the bytes last written, up to the first one that unwinds.", "quantifier": "all contents of the memory, all types, all destructors (also unwinding ones), all programs permitted by types and borrows", "why_tests_cant": "All histories over all memories, layouts and destructors.", "anchors": ["exit-stack/src/lib.rs:ExitStack::slot", "exit-stack/src/lib.rs:ExitStack::set", "exit-stack/src/lib.rs:ExitStack::pop_all", "exit-stack/src/lib.rs:Slot::pin", "exit-stack/src/lib.rs:Slot::pin_local", "exit-stack/src/lib.rs:inner_pop_all_with_unsafe_self_and_pinned", "exit-stack/src/lib.rs:Drop for ExitStack"]}
{"id": "C86", "title": "Data structures in one memory do not interfere", "statement": "Any number of FixedVecs, Rcs and Weaks, ExitStacks, Chains, bump allocators, LeakBoxes in bump allocators, and pieces of memory with Boxes in them, of any types and in disjoint parts of one memory, can be used by one program, with calls in any order: no call is undefined behaviour, each structure answers exactly what it would if it were alone, and bytes of memory that belong to none of those called never change. Whether a call is permitted depends on the structure that is called only, so that a program can be checked one structure at a time. Memory that one bump allocator has handed out for different purposes, in the same program, is such disjoint memory, and is apart from the allocator's own.", "quantifier": "all sets of structures and types, all places for them in memory, all contents of the memory, all programs with calls permitted by types, borrows and safety sections, in all orders", "why_tests_cant": "Combinations of structures, layouts and interleaved histories are unbounded.", "anchors": ["static-alloc/src/unsync/bump.rs:MemBump::get", "without-alloc/src/fixed_vec.rs:FixedVec", "without-alloc/src/rc.rs:Rc", "without-alloc/src/rc.rs:Weak", "exit-stack/src/lib.rs:ExitStack", "static-alloc/src/leaked.rs:LeakBox", "static-alloc/src/unsync/bump.rs:MemBump::bump_box"]}
{"id": "C87", "title": "Levels and addresses are in the order of the allocations", "statement": "The level that comes with an allocation of the static bump is the place of its end in the storage; of two allocations (since the last reset) the one with the smaller level has the smaller addresses, whichever threads made them; a call that starts after memory was handed out, or after a level was seen, gets memory behind it, and memory handed out before a level was seen is before it.", "quantifier": "all slabs, all calls of any number of threads, all schedules", "why_tests_cant": "All interleavings.", "anchors": ["static-alloc/src/bump.rs:Bump::level", "static-alloc/src/bump.rs:Bump::get", "static-alloc/src/bump.rs:Bump::get_at", "static-alloc/src/bump.rs:Bump::leak_at", "static-alloc/src/bump.rs:Allocation"]}
{"id": "C88", "title": "Threads with boxes in one shared bump do not disturb each other", "statement": "Threads that make LeakBoxes, leaked references and allocations in one shared static bump (leak_box, leak, get and the variants with a level, all racing), read, replace, assign, take, leak and drop them, send references to other threads, and reset the bump when there is no box left, on memory with any contents: there are no data races (memory of variables is disjoint, and no running call writes to it), every thread reads back the value last put into its variable; destructors run on exactly the values put in; each value is dropped or handed out at most as often as it was moved in, and exactly as often if nothing is leaked.", "quantifier": "all numbers of threads, all schedules, all contents of the memory, all types, all programs permitted by types and borrows, also with panicking destructors", "why_tests_cant": "All interleavings of all histories.", "anchors": ["static-alloc/src/bump.rs:Bump::leak_box", "static-alloc/src/bump.rs:Bump::leak_box_at", "static-alloc/src/bump.rs:Bump::leak", "static-alloc/src/bump.rs:Bump::leak_at", "static-alloc/src/bump.rs:Bump::get", "static-alloc/src/bump.rs:Bump::get_at", "static-alloc/src/bump.rs:Bump::reset", "static-alloc/src/bump.rs:Allocation::boxed", "static-alloc/src/bump.rs:Allocation::leak", "static-alloc/src/leaked.rs:LeakBox::take", "static-alloc/src/leaked.rs:LeakBox::leak", "static-alloc/src/leaked.rs:LeakBox::from_raw", "static-alloc/src/leaked.rs:Drop for LeakBox"]}
{"id": "C89", "title": "Threads that use the data structures in memory of the global allocator", "statement": "The static bump is the global allocator of a program with any number of threads, which allocate, zero, reallocate and free blocks concurrently, and make fixed vectors, reference counted values, boxes (also in a nested bump), exit stacks and chains in the blocks that they got. Calls of the structures are not atomic: calls of the allocator and of other structures run in between. Then no call is undefined behaviour, each structure answers exactly what its specification without memory, allocator and other threads says, its blocks stay allocated and its bytes inside of the storage, no other structure or thread inside of the allocator accesses these bytes (no data races), and only its own calls change them.", "quantifier": "all numbers of threads, all schedules, all sets and kinds of structures, all calls permitted by types and borrows, all contents of the memory, also when structures end and their blocks are freed and used again", "why_tests_cant": "All interleavings of all histories of all users of one memory.", "anchors": ["static-alloc/src/bump.rs:GlobalAlloc for Bump", "without-alloc/src/fixed_vec.rs:FixedVec", "without-alloc/src/rc.rs:Rc", "without-alloc/src/rc.rs:Weak", "exit-stack/src/lib.rs:ExitStack", "static-alloc/src/unsync/bump.rs:MemBump", "static-alloc/src/leaked.rs:LeakBox"]}
{"id": "C90", "title": "The guarantees of the shared bump hold in the memory model of the language", "statement": "Threads call methods of one static bump, and the compiler and the processor do with its atomic operations whatever the memory model of Rust (that of C++20) allows. Every such execution is equivalent to an interleaving of the steps of the threads that is consistent with happens-before, so the calls are linearizable with respect to happens-before; memory returned by any two calls, ordered or not, is disjoint and in the storage; and the value a call stores is written to memory that no other call writes to or has returned, so there are no data races. That remains true if the atomic operations were weaker than SeqCst. Conversely every interleaving is an execution of the memory model.", "quantifier": "all executions (graphs of actions with reads-from, modification order and happens-before) that satisfy the axioms, with any number of threads, calls and additional synchronisation", "why_tests_cant": "Which executions a test shows depends on the processor and the compiler; weak behaviours are hardly ever seen.", "anchors": ["static-alloc/src/bump.rs:Bump::bump", "static-alloc/src/bump.rs:Bump::try_alloc", "static-alloc/src/bump.rs:Bump::try_alloc_at", "static-alloc/src/bump.rs:Bump::level", "static-alloc/src/bump.rs:Bump::leak", "static-alloc/src/bump.rs:Bump::leak_at"]}
{"id": "C91", "title": "Boxes and pieces of memory of the user keep their values apart", "statement": "A program gets pieces of memory of any contents as Uninits, casts and splits them, puts values into the pieces (directly or as Boxes), reads, replaces, takes, leaks and drops them and uses the memory that comes back for values of other types. Then no two pieces, boxes and references have a byte in common, all are within the memory that was given, boxes are aligned and have room for their value; every box reads back the value last put into it, whatever is done with the others; memory that is not given up remains in some piece or box; destructors run on exactly the values put in; each value is dropped or handed out at most as often as it was moved in, and exactly as often if all values are in boxes that are not leaked.", "quantifier": "all programs permitted by types, borrows and the safety sections, all types, all contents of the memory, also with panicking destructors", "why_tests_cant": "All histories of casts, splits and moves of values of all types.", "anchors": ["without-alloc/src/boxed.rs:Box::new", "without-alloc/src/boxed.rs:Box::take", "without-alloc/src/boxed.rs:Box::leak", "without-alloc/src/boxed.rs:Box::into_raw", "without-alloc/src/boxed.rs:Box::from_raw", "without-alloc/src/boxed.rs:Drop for Box", "without-alloc/src/uninit.rs:Uninit::init", "without-alloc/src/uninit.rs:Uninit::read", "without-alloc/src/uninit.rs:Uninit::into_mut", "without-alloc/src/uninit.rs:Uninit::cast", "without-alloc/src/uninit.rs:Uninit::split_at_byte", "without-alloc/src/uninit.rs:Uninit::split_at", "without-alloc/src/uninit.rs:Uninit::split_cast"]}
{"id": "C92", "title": "A pinned box of a static pool stays where it is until its destructor has run", "statement": "A thread turns a box in a static pool into a pinned one with LeakBox::into_pin. Whatever any threads do afterwards, and even if the box is forgotten: the value stays at its address, no memory that is handed out later overlaps it, its bytes change only if its owner sets another value through the pin, and if the box is dropped then the destructor runs on exactly these bytes. The same holds for boxes in an unsync bump. It would not hold without the 'static bound of into_pin: a box that is not borrowed for 'static can be lost and its memory be handed out again without that the destructor has run.", "quantifier": "all programs before and after the pin, any number of threads, all interleavings, all types, also if the bump is full", "why_tests_cant": "The guarantee is about everything that the program does for the rest of its life.", "anchors": ["static-alloc/src/leaked.rs:LeakBox::into_pin", "static-alloc/src/bump.rs:Bump::leak_box", "static-alloc/src/bump.rs:Bump::reset", "static-alloc/src/unsync/bump.rs:MemBump::bump_box", "static-alloc/src/leaked.rs:Drop for LeakBox"]}
{"id": "C93", "title": "A program with Bump as global allocator has no data races because of it", "statement": "Threads use one static bump through GlobalAlloc (alloc, alloc_zeroed, realloc, dealloc) and its own methods, and read and write the bytes of the blocks they have. If the program keeps to the contract - a block is used, passed on and freed only by who has received it, once, and its own accesses to a block are ordered by happens-before when one of them is a write - then no two accesses race, neither those of the program nor those which the allocator makes itself when it zeroes, copies or stores values; two blocks overlap only if one of them was passed to the allocator before the other one was received; all blocks are in the storage; and no call has undefined behaviour. All in the memory model of the language, whatever the compiler and the processor do.", "quantifier": "all executions that the memory model permits, any number of threads, calls, accesses and additional synchronisation, atomic operations of any ordering", "why_tests_cant": "Races depend on schedules and on the processor, and most are not seen even when they happen.", "anchors": ["static-alloc/src/bump.rs:GlobalAlloc for Bump", "static-alloc/src/bump.rs:LocalAlloc for Bump", "static-alloc/src/bump.rs:Bump::bump", "static-alloc/src/bump.rs:Bump::try_alloc", "static-alloc/src/bump.rs:Bump::leak"]}
{"id": "C94", "title": "Blocks of the global allocator hold what the program put there, also when they move between threads and are reallocated", "statement": "Threads use one static bump as global allocator, as in C93, and the memory model says of reads that are not atomic only that they have the value of a write that happens before them without another one in between. Then a read through a block gets the byte that the program has written there last through this block; if it has not written there: zero if the block is of alloc_zeroed, the byte of the value if one was moved there by leak, and if the block is of realloc, what the block had held at this offset that was passed to realloc (up to the smaller of the sizes, and if realloc failed then all of it). What is written to other blocks, by whatever thread, has no effect.", "quantifier": "all executions that the memory model permits, any number of threads, calls, accesses and chains of reallocations, in place or not", "why_tests_cant": "All executions, and each one's chains of owners in several threads.", "anchors": ["static-alloc/src/bump.rs:GlobalAlloc for Bump", "static-alloc/src/bump.rs:LocalAlloc for Bump", "static-alloc/src/bump.rs:Bump::leak", "static-alloc/src/bump.rs:Allocation::leak"]}
{"id": "C95", "title": "Programs with the global allocator behave as if their threads took turns", "statement": "Threads use one static bump as global allocator and follow the contract, as in C93 and C94. Then for every execution that the memory model permits there is an order of all actions of all threads, in which the order of each thread and happens-before are kept, such that every read, also of the level of the allocator, gets what was written latest in this order. Executing the actions in this order one after the other, on one memory, gives the same results of all calls, the same values, and every action is possible when it is its turn: blocks are owned when they are used or passed on. So everything that holds for interleavings (C70 to C74) holds in the memory model. Conversely every interleaving is an execution that the memory model permits, with the same actions, and with every happens-before that fits the order of time and for which the contract is followed.", "quantifier": "all executions that the memory model permits, any number of threads, calls and accesses", "why_tests_cant": "All executions; that an order exists for each cannot be observed.", "anchors": ["static-alloc/src/bump.rs:GlobalAlloc for Bump", "static-alloc/src/bump.rs:LocalAlloc for Bump", "static-alloc/src/bump.rs:Bump::try_alloc"]}
{"id": "C96", "title": "Structures linked by boxes are dropped completely, node by node", "statement": "Values may contain boxes (of leak_box, or of boxed) of other values, which contain boxes again: lists, trees. A program makes values, puts them in boxes, links these into other values directly or through references, detaches and replaces parts anywhere in a structure, takes values out of their boxes, and drops or forgets any of it. It always finds the values that it put there, without undefined behavior. Dropping a value or box runs the destructor of the value and then those of everything that it owns at that time, in order from owner to owned, also if one of them panics (a second panic aborts the program), and also if leak_box fails and drops its argument. No destructor is run twice; and at any time every value has been destroyed, is still held by a variable, or was forgotten.", "quantifier": "all programs of such operations, all shapes and sizes of structures, all choices of panicking destructors, slabs of every size, address and level, and any previous content of memory", "why_tests_cant": "Structures are unbounded, and so are the histories that build and change them; only examples can be tested.", "anchors": ["static-alloc/src/bump.rs:Bump::leak_box", "static-alloc/src/leaked.rs:Drop for LeakBox", "static-alloc/src/leaked.rs:LeakBox::take", "static-alloc/src/leaked.rs:LeakBox::leak", "static-alloc/src/leaked.rs:Deref for LeakBox", "static-alloc/src/leaked.rs:DerefMut for LeakBox", "without-alloc/src/boxed.rs:Drop for Box", "without-alloc/src/boxed.rs:Box::take", "without-alloc/src/alloc.rs:LocalAllocLeakExt::boxed"]}
{"id": "C97", "title": "Structures shared by Rc: a value is destroyed exactly when its last strong pointer is gone", "statement": "Values in without_alloc::Rc may contain Rc and Weak pointers themselves: shared lists, trees with parent pointers, arbitrary graphs with cycles. A program makes, shares, clones, downgrades and upgrades pointers, stores them in values before and after these are shared, follows them, takes them out again, exchanges, unwraps and recycles values and their memory, and drops or forgets any of it. At any time (unless a second panic while unwinding aborted the program) a shared value exists if and only if there is a strong pointer to it: in a variable, in a value that exists, or forgotten. So what can be reached by strong pointers exists and has the content that the program gave it, upgrade succeeds exactly then, counts are the numbers of pointers, and dropping the last strong pointer destroys the value and then drops its pointers, recursively, also if a destructor panics. No destructor is run twice. Only cycles of strong pointers leak: without them every value has been destroyed when no variable is left and nothing was forgotten; weak back pointers make no cycles.", "quantifier": "all programs of such operations, all graphs, all choices of panicking destructors, slabs of every size, address and level, with and without overflow checks, as long as there are less than usize::MAX pointers to each block", "why_tests_cant": "Graphs and histories are unbounded, and the recursion of destructors depends on both; tests can only try a few shapes.", "anchors": ["without-alloc/src/rc.rs:Drop for Rc", "without-alloc/src/rc.rs:Drop for Weak", "without-alloc/src/rc.rs:Clone for Rc", "without-alloc/src/rc.rs:Clone for Weak", "without-alloc/src/rc.rs:Rc::downgrade", "without-alloc/src/rc.rs:Weak::upgrade", "without-alloc/src/rc.rs:Rc::try_unwrap", "without-alloc/src/rc.rs:Weak::try_unwrap", "without-alloc/src/rc.rs:Rc::get_mut", "without-alloc/src/rc.rs:Rc::strong_count", "without-alloc/src/rc.rs:Rc::weak_count", "without-alloc/src/rc.rs:Rc::ptr_eq", "without-alloc/src/rc.rs:Rc::new", "without-alloc/src/alloc.rs:LocalAllocLeakExt::rc"]}
{"id": "C98", "title": "Vectors in vectors: FixedVec of a type that contains a FixedVec of itself", "statement": "A type may contain a FixedVec whose elements are of this type again: trees in which every node has its children inline in its own allocation. A program makes values with vectors of any capacity, pushes values into vectors at any depth, pops, truncates, drains (taking from both ends, then dropping or forgetting the drain), splits vectors in two, swaps whole values with mem::swap, and drops or forgets any of it. It always finds what it put there, without undefined behavior, also after moves of values that contain vectors and of the elements behind a drained range. Capacities are those at creation or after a split. Dropping a value runs its destructor and then those of all elements, from owner to owned and in the order of the vector; truncate goes from the back, a drain from the front. A panic in a destructor in truncate leaves the elements in front in the vector; in a drain it gives up the rest of the drain and the elements behind it. No destructor is run twice, and every value has been destroyed, is held, or was given up in one of these ways.", "quantifier": "all programs of such operations, all shapes and depths, all capacities and choices of panicking destructors, all layouts of nonzero size, slabs of every size, address and level, and any previous content of memory", "why_tests_cant": "Depth, sizes and histories are unbounded; an error in the order of moves and drops shows only in particular shapes.", "anchors": ["without-alloc/src/alloc.rs:LocalAllocLeakExt::fixed_vec", "without-alloc/src/fixed_vec.rs:FixedVec::push", "without-alloc/src/fixed_vec.rs:FixedVec::pop", "without-alloc/src/fixed_vec.rs:FixedVec::truncate", "without-alloc/src/fixed_vec.rs:FixedVec::drain", "without-alloc/src/fixed_vec.rs:Drop for Drain", "without-alloc/src/fixed_vec.rs:FixedVec::split_and_shrink_to", "without-alloc/src/fixed_vec.rs:Drop for FixedVec", "without-alloc/src/fixed_vec.rs:IndexMut for FixedVec"]}
{"id": "C99", "title": "Destructors may use shared pointers in any way", "statement": "The destructor of a value in a without_alloc::Rc is code of the user: it may take Rc and Weak pointers out of its own value or put others in, clone, upgrade, downgrade and drop these and all other pointers of the program, allocate, and so begin and complete other destructors, and it may panic. At any time, also in the midst of destructors, a shared value exists if and only if there is a strong pointer to it: in a variable, in a value that exists, in a value that is being destroyed, or forgotten. Its destructor is begun at once when the last one is gone, afterwards its remaining pointers are dropped in order; what the destructor took out survives. A value that is being destroyed can not be reached: upgrade gives None. Counts are the numbers of pointers. No destructor is begun twice, nothing is used after its destruction, a panic continues after the remaining pointers have been dropped, a second one while unwinding aborts. Only cycles of strong pointers leak.", "quantifier": "all programs of such operations and all behaviors of destructors, nested to any depth, all graphs, slabs of every size, address and level, with and without overflow checks, as long as there are less than usize::MAX pointers to each block", "why_tests_cant": "Re-entrant code in destructors sees the library in intermediate states; the interleavings of nested destructors with operations on arbitrary graphs are unbounded.", "anchors": ["without-alloc/src/rc.rs:Drop for Rc", "without-alloc/src/rc.rs:Drop for Weak", "without-alloc/src/rc.rs:Weak::try_unwrap", "without-alloc/src/rc.rs:Weak::upgrade", "without-alloc/src/rc.rs:Clone for Rc", "without-alloc/src/rc.rs:Clone for Weak", "without-alloc/src/rc.rs:Rc::downgrade", "without-alloc/src/rc.rs:Rc::try_unwrap", "without-alloc/src/rc.rs:Rc::get_mut", "without-alloc/src/alloc.rs:LocalAllocLeakExt::rc"]}
{"id": "C100", "title": "LeakBox, Rc and Weak can be combined in one program", "statement": "A program may use static_alloc::leaked::LeakBox and without_alloc::rc::Rc and Weak together: values contain pointers of all three kinds in any combination, they are accessed and changed through chains of these, moved, exchanged (mem::swap, get_mut), taken out (LeakBox::take, Rc::try_unwrap), their memory is used again, and their destructors are code of the user that may do all of this too and may panic. As long as Weak::try_unwrap is not called for the memory of a value that is being destroyed (see C99): at any time a value exists if and only if there is a LeakBox or an Rc for it; there is never more than one LeakBox for a value; its destructor is begun at once when this, or the last Rc, is gone, and never twice; nothing is used after its destruction; counts are the numbers of pointers; a value that is being destroyed can not be reached, and upgrade gives None. A LeakBox is never, directly or in further ones, inside of itself. Only cycles with an Rc on them leak.", "quantifier": "all programs of such operations and all behaviors of destructors, nested to any depth, all graphs with pointers of the three kinds, all paths in them, slabs of every size, address and level, with and without overflow checks, as long as there are less than usize::MAX pointers to each block and Weak::try_unwrap is not called for a value that is being destroyed", "why_tests_cant": "The interaction of both libraries depends on the shape of the graph, which is unbounded; tests use each pointer type alone.", "anchors": ["static-alloc/src/leaked.rs:Drop for LeakBox", "static-alloc/src/leaked.rs:LeakBox::take", "static-alloc/src/leaked.rs:LeakBox::leak", "static-alloc/src/leaked.rs:Deref for LeakBox", "static-alloc/src/bump.rs:Bump::leak_box", "without-alloc/src/rc.rs:Drop for Rc", "without-alloc/src/rc.rs:Drop for Weak", "without-alloc/src/rc.rs:Weak::try_unwrap", "without-alloc/src/rc.rs:Weak::upgrade", "without-alloc/src/rc.rs:Clone for Rc", "without-alloc/src/rc.rs:Clone for Weak", "without-alloc/src/rc.rs:Rc::downgrade", "without-alloc/src/rc.rs:Rc::try_unwrap", "without-alloc/src/rc.rs:Rc::get_mut", "without-alloc/src/alloc.rs:LocalAllocLeakExt::rc"]}
{"id": "C101", "title": "Filling neither loses a value nor destroys one twice", "statement": "After filling a container, through `fill`, `fill_and_keep_tail` or `checked_fill`, each value that was in the container and each value of an item that was taken from the iterator is in the container, or was destroyed, exactly once. `Vec`, `VecDeque` and `Option` destroy nothing. A slice destroys exactly the elements that are overwritten, one at a time. A `Result` destroys exactly the Ok items for which there is no room, and the container that an error replaces. All this holds also if the iterator or destructors panic: filling stops there, the item that was being stored is in its place, and items not taken remain in the iterator. Filling through references swaps values, none is destroyed.", "quantifier": "all containers of the crate (Results nested to any depth), all iterators (also non-fused, infinite, panicking), all destructors that may panic, items with any number of values", "why_tests_cant": "lost and double drops show only for particular interleavings of full containers, errors and panicking destructors", "anchors": ["fill/src/fill.rs:Fill", "fill/src/fill.rs:impl Fill for Result", "fill/src/fill.rs:impl Fill for IterMut", "fill/src/fill.rs:impl Fill for Option", "fill/src/fill.rs:impl Fill for Vec"]}
{"id": "C102", "title": "Destructors of pinned values can use other exit stacks", "statement": "The destructor of a value pinned to an exit stack can itself be any program: it can make exit stacks, pin values to them, use `set`, clear and drop them (which runs further destructors, nested to any depth), and read and write its own value. However the destructors are nested, no call is undefined behaviour; every call gives the address, bytes or failure it would give if each stack were a list of values; no destructor is begun twice; in each stack the destructors are begun last in, first out; slots of different values never overlap, also not while the stack is being cleared; and each value pinned is at every moment in its stack, waiting, begun, or lost because a destructor of its stack unwound. If none unwinds, dropping a stack runs the destructor of each of its values exactly once.", "quantifier": "all programs, stacks of any number, size and position, types of values, depth of nesting, destructors that return or unwind", "why_tests_cant": "re-entrance of destructors is a matter of schedules: a destructor may run any other operation at each of its steps, on any number of stacks", "anchors": ["exit-stack/src/lib.rs:ExitStack::pop_all", "exit-stack/src/lib.rs:ExitStack::set", "exit-stack/src/lib.rs:ExitStack::slot", "exit-stack/src/lib.rs:Slot::pin", "exit-stack/src/lib.rs:inner_pop_all_with_unsafe_self_and_pinned", "exit-stack/src/lib.rs:impl Drop for ExitStack"]}
{"id": "C103", "title": "FixedVec respects the aliasing rules of the language", "statement": "A program which the borrow checker accepts has no undefined behaviour by the aliasing rules (Stacked Borrows) when it uses FixedVec: push, pop, truncate, clear, fill, extend, slices, index, split_borrowed, split_and_shrink_to, drain and its slices, drop and forget access only memory that their pointers may access at that time, also when iterators or destructors panic. References to elements of one vector stay usable whatever is done with other vectors, also those split from the same memory, and shared ones while the vector is read. A pointer from as_mut_ptr/as_ptr is valid for reading and writing the whole capacity, not only the elements, and stays so when the vector is used in between. The lengths are those of a bounded vector.", "quantifier": "all programs of these operations on any number of vectors split from one memory, with references reborrowed to any depth and raw pointers, element sizes, capacities, positions and previous borrows of the memory", "why_tests_cant": "whether a pointer may be used depends on the whole history of accesses and references; tests, and Miri, check single histories (the bug fixed in 0.2.2 was found that way)", "anchors": ["without-alloc/src/fixed_vec.rs:FixedVec::as_mut_ptr", "without-alloc/src/fixed_vec.rs:FixedVec::fill", "without-alloc/src/fixed_vec.rs:FixedVec::push", "without-alloc/src/fixed_vec.rs:FixedVec::pop", "without-alloc/src/fixed_vec.rs:FixedVec::truncate", "without-alloc/src/fixed_vec.rs:FixedVec::drain", "without-alloc/src/fixed_vec.rs:FixedVec::split_borrowed", "without-alloc/src/fixed_vec.rs:FixedVec::split_and_shrink_to", "without-alloc/src/fixed_vec.rs:Drop for Drain", "without-alloc/src/fixed_vec.rs:Drop for FixedVec", "without-alloc/src/uninit.rs:Uninit::as_begin_ptr", "without-alloc/src/uninit.rs:Uninit::init"]}
{"id": "C104", "title": "Bump and LeakBox respect the aliasing rules of the language", "statement": "A program which the borrow checker accepts has no undefined behaviour by the aliasing rules (Stacked Borrows) when it allocates through shared references to a Bump, which give mutable references to memory inside of it: allocating with alloc, alloc_at, leak, leak_at, leak_box, leak_box_at, reading the level, making further shared references to the Bump, using the memory through the raw pointer, writing and leaking it, making, dereferencing, leaking, taking and dropping a LeakBox access only memory that their pointers may access at that time. The references to each allocation, and those reborrowed from them, stay usable whatever is done with the Bump and with other allocations, until reset, which needs exclusive access. References to different allocations never overlap.", "quantifier": "all programs of these operations, with any number of allocations of all layouts, shared references to the Bump, and references reborrowed to any depth; all sizes and positions of the Bump, levels, and previous borrows of it", "why_tests_cant": "a Bump gives out mutable references derived from shared ones; whether a later call invalidates one of these depends on the whole history, which tests and Miri only sample", "anchors": ["static-alloc/src/bump.rs:Bump::alloc", "static-alloc/src/bump.rs:Bump::alloc_at", "static-alloc/src/bump.rs:Bump::level", "static-alloc/src/bump.rs:Bump::leak", "static-alloc/src/bump.rs:Bump::leak_at", "static-alloc/src/bump.rs:Bump::leak_box", "static-alloc/src/bump.rs:Bump::reset", "static-alloc/src/bump.rs:Allocation::leak", "static-alloc/src/bump.rs:Allocation::boxed", "static-alloc/src/bump.rs:Allocation::uninit", "static-alloc/src/leaked.rs:Deref for LeakBox", "static-alloc/src/leaked.rs:LeakBox::leak", "static-alloc/src/leaked.rs:LeakBox::take", "static-alloc/src/leaked.rs:Drop for LeakBox"]}
{"id": "C105", "title": "Rc and Weak respect the aliasing rules of the language", "statement": "A program which the borrow checker accepts has no undefined behaviour by the aliasing rules (Stacked Borrows) when it uses Rc and Weak: making an Rc in memory, clone, downgrade, upgrade, the counts, deref, get_mut, try_unwrap, into_raw, from_raw, and dropping them in any order access only memory that their pointers may access at that time. The references which deref and get_mut give, the one of the destructor of the value, and those reborrowed from them stay usable as long as the borrow checker permits, whatever is done with other Rc and Weak to the same value. No two pointers have a mutable reference to the value at once; get_mut succeeds exactly if there is no other pointer, the destructor runs exactly with the last Rc, upgrade succeeds exactly if there is an Rc, and memory is given back exactly if there is no other pointer to it.", "quantifier": "all programs of these operations, with any number of values, handles and references reborrowed to any depth; all sizes and positions of the values and their counters, and previous borrows of the memory", "why_tests_cant": "many handles share one raw pointer from which mutable and shared references are made; whether one invalidates another depends on the whole history, which tests and Miri only sample", "anchors": ["without-alloc/src/rc.rs:Rc::new", "without-alloc/src/rc.rs:Rc::into_raw", "without-alloc/src/rc.rs:Rc::from_raw", "without-alloc/src/rc.rs:Rc::try_unwrap", "without-alloc/src/rc.rs:Rc::downgrade", "without-alloc/src/rc.rs:Rc::strong_count", "without-alloc/src/rc.rs:Rc::weak_count", "without-alloc/src/rc.rs:Rc::get_mut", "without-alloc/src/rc.rs:Weak::upgrade", "without-alloc/src/rc.rs:Weak::try_unwrap", "without-alloc/src/rc.rs:Weak::strong_count", "without-alloc/src/rc.rs:Weak::weak_count", "without-alloc/src/rc.rs:Deref for Rc", "without-alloc/src/rc.rs:Drop for Rc", "without-alloc/src/rc.rs:Drop for Weak", "without-alloc/src/rc.rs:Clone for Rc", "without-alloc/src/rc.rs:Clone for Weak"]}
{"id": "C106", "title": "Values pinned to an exit stack stay where they are, whatever safe code does with the stack", "statement": "A value pinned to an ExitStack stays at its address until its destructor ran there: programs of safe code, which can also move the ExitStack itself wherever the language permits it, are not undefined behaviour, never move a pinned value, and run each destructor at the address at which the value was pinned. A stack that is moved without pinned values works at the new place as before.", "quantifier": "all programs of slot, pin, set, pop_all, writes, drop, and moves of the stack to any address, with values and destructors of all types, for Mem that is Unpin and for Mem that is not", "why_tests_cant": "whether a move is possible depends on auto traits of the type parameter; tests pin the stack with a macro which does not let them move it", "anchors": ["exit-stack/src/lib.rs:ExitStack::slot", "exit-stack/src/lib.rs:ExitStack::set", "exit-stack/src/lib.rs:ExitStack::pop_all", "exit-stack/src/lib.rs:Slot::pin", "exit-stack/src/lib.rs:Drop for ExitStack"]}
{"id": "C107", "title": "The exit stack keeps its pointers usable under the aliasing rules", "statement": "Every access that the methods of ExitStack, the destructors it runs and safe code with its slots and pinned values make is permitted by the aliasing rules (Stacked Borrows, without protectors): the handles in the list of values are usable when pop_all, set or the destructor of the stack follows them, whatever was done with the stack and the references to values before, and a reference to a pinned value stays usable while slots are taken, and other values are pinned.", "quantifier": "all programs of sharing, slot, pin, set, pop_all, drop and uses and reborrows of the references to values, at any address, with values of all sizes, for Mem that is Unpin and for Mem that is not", "why_tests_cant": "undefined behaviour is not visible in the result of a test; which accesses invalidate which pointers depends on the history of all references", "anchors": ["exit-stack/src/lib.rs:ExitStack::slot", "exit-stack/src/lib.rs:ExitStack::set", "exit-stack/src/lib.rs:ExitStack::pop_all", "exit-stack/src/lib.rs:Slot::pin", "exit-stack/src/lib.rs:Drop for ExitStack", "static-alloc/src/unsync/bump.rs:Bump::bump_box"]}
