{
 "C25": {
  "status": "partial",
  "note": "Violated by the code: MemBump::new never initialises the header (C25_new_level_arbitrary, C25_new_first_alloc_may_panic). Proved: capacity/layout, and level 0 if the heap memory happens to be zero."
 },
 "C26": {
  "status": "partial",
  "note": "Violated by the code if base+level is not aligned for the type (C26_unaligned_wrong_pointer). Proved for aligned levels."
 },
 "C27": {
  "status": "partial",
  "note": "Violated for align_of T > align_of usize (C27_overaligned_debug_panics, C27_overaligned_no_room). Proved for smaller alignments; in-bounds always."
 },
 "C28": {
  "status": "partial",
  "note": "Violated for zero sizes (C28_empty_array_panics, C28_zst_box_panics). Proved for non-zero sizes. Exactly when: C28_bump_array_iff, C28_bump_box_iff."
 },
 "C29": {
  "status": "partial",
  "note": "Violated for empty slices/zero-sized elements (C29_empty_panics), and debug builds where u64 is over-aligned (C29_debug_panics). Proved otherwise; the slice passed is always right. Exactly when: C29_runs_iff."
 },
 "C35": {
  "status": "partial",
  "note": "Violated after a destructor panicked: memory of a pinned, never dropped value is handed out again (C35_violated_after_panic). Proved for all histories in which no destructor panicked; absence of UB, stability and disjointness of the values in the stack for all histories."
 },
 "C36": {
  "status": "partial",
  "note": "Violated by the code: flag.chain was taken when the destructor runs, so the unwind guard has nothing left to drop (C36_panic_drops_prefix, C36_lost_forever, C36_violated). Proved: no double drops for any set of panicking destructors."
 },
 "C37": {
  "status": "partial",
  "note": "Violated for types with alignment larger than the machine word (C37_violated). Proved for all others if no destructor panics. Exactly when `set` succeeds: C37_set_succeeds_iff."
 },
 "C38": {
  "status": "partial",
  "note": "Violated: split_at_byte/split_to_fit on a view of a type of 2 or more bytes scales the byte offset by the type size, so the tail leaves the memory (C38_violated, C38_violated_split_to_fit, C38_violated_run). Proved for every history in which these are only used on views of types of at most one byte. Exactly when a byte split stays inside: C38_split_at_byte_iff."
 },
 "C39": {
  "status": "partial",
  "note": "Violated: split_at_byte on a view of a zero-sized type (untyped memory!) gives a tail starting at the head's start (C39_violated). Proved: disjointness for every history in which split_at_byte is used on one-byte types only; slice splits always. C39_split_at_byte_iff states exactly when the two halves of a byte split are disjoint."
 },
 "C41": {
  "status": "partial",
  "note": "Violated: memory whose start is not aligned is always rejected although a later aligned place could hold the layout (C41_violated, C41_violated_cast). Proved for aligned starts; soundness always. Exactly when it succeeds: C41_split_layout_iff."
 },
 "C42": {
  "status": "partial",
  "note": "Violated: split_at leaves the head's slice pointer at the old element count (C42_violated). Proved for histories without such stale heads. Exactly what split_at does: C42_split_at_iff."
 },
 "C43": {
  "status": "partial",
  "note": "Violated for slices of zero-sized elements: the length becomes usize::MAX (C43_violated_zst). Proved otherwise. Exactly when: C43_slice_iff."
 },
 "C47": {
  "status": "partial",
  "note": "Violated in builds without overflow checks for an inclusive bound of usize::MAX, which wraps and does not panic (C47_violated_wrap). Proved for all other ranges (all ranges with overflow checks). What such a build does instead, for all bounds and histories: C47_wraps, C47_wrapped_history (no undefined behaviour)."
 },
 "C50": {
  "status": "partial",
  "note": "Violated for memory that does not start aligned: the vector has capacity 0 however much room there is (C50_violated). Proved for aligned memory. The exact capacity: C50_capacity."
 },
 "C55": {
  "status": "partial",
  "note": "Violated by the code: Drop for Rc decrements the weak count before running the destructor, so that a Weak reached from the destructor gets the memory of the value being destroyed (C55_violated). Proved: the memory is given only to the only handle, at most once; all for any interleaving of destructors."
 },
 "C57": {
  "status": "partial",
  "note": "Violated in builds without overflow checks: the count wraps after 2^bits forgotten clones, the value is dropped while a handle is usable (C57_violated_wrap). Proved for builds with overflow checks (any number of clones and forgotten handles), and for all builds below the bound (C52, C53). C57_upgrade_panic_miscounts: the panicking upgrade decrements the count."
 },
 "C59": {
  "status": "partial",
  "note": "Violated: a non-empty slice of zero-sized elements is copied to an empty slice (C59_violated_zst); with an allocator that returns more memory than requested, which the trait allows, the result is longer than the source and has uninitialised elements (C59_violated_larger, C59_violated_larger_run with an allocator fulfilling the contract). Proved for allocators with exact layouts (as Bump, C59_copy_slice_bump) and elements of non-zero size; equality of the prefix for all allocators. Exactly when: C59_copy_slice_iff."
 },
 "C68": {
  "status": "partial",
  "note": "Violated for zero-sized values with alignment above 1: the reference is misaligned (C68_violated). Proved for all other layouts and every allocator. Zero-sized values exactly: C68_zero_sized."
 },
 "C65": {
  "status": "partial",
  "note": "Violated for Result: it keeps taking Ok items from the iterator after the container is full, and they are lost (C65_violated); for an infinite iterator it never returns (C65_violated_diverges). Proved: Option and Err in full; Result if the container has room for all Ok items before the first other answer. What Result does in general: C65_result_exact."
 },
 "C69": {
  "status": "partial",
  "note": "Violated for Pin<without_alloc::Box<T>>: the result has provenance for the value only, not for the rest of the memory of its Uninit (C69_violated_pin_box; in the Stacked Borrows model used). Proved for all others; for these too that the value can be accessed."
 },
 "C91": {
  "status": "partial",
  "note": "Violated by the code: a program without unsafe that splits a slice's memory with split_at_byte gets two boxes in the same bytes, one value is dropped twice (C91_violated). Proved for all programs that use split_at_byte and split_to_fit only where they do what is documented (see C38, C39)."
 },
 "C99": {
  "status": "partial",
  "note": "Violated by the code: Drop for Rc gives up the memory before the destructor has run, so a destructor that calls Weak::try_unwrap for the block of its own value gets memory that is in use; in a program without unsafe another value is then used after its destruction and destroyed twice (C99_violated). Proved for all programs that do not call Weak::try_unwrap for the memory of a value that is being destroyed."
 },
 "C105": {
  "status": "partial",
  "note": "Violated by the code: Drop for Rc gives up its Weak before the destructor of the value runs, so a Weak::try_unwrap in this destructor gives away the memory of the value being dropped, and using its &mut self afterwards is undefined behaviour (C105_violated_unwrap_in_drop). Proved for all programs which do not call Weak::try_unwrap on a value during its destructor. The counters are natural numbers (overflow: C57), the value contains no UnsafeCell."
 },
 "C106": {
  "status": "partial",
  "note": "Violated by the code: ExitStack<Mem> is Unpin if Mem is, so safe code can pin a value (Pin::new), let the borrow end, and move the stack; the list of pinned values then points to the old place, and drop or pop_all follows it (C106_violated_move_of_unpin). Proved for Mem that is not Unpin, and for programs which move the stack only when no value is pinned."
 },
 "C107": {
  "status": "partial",
  "note": "Violated by the code if Mem is Unpin: the &mut self of pop_all and drop is then a unique borrow of the whole stack, which contains the pinned values, and so the handles in the list must not be used any more, but are (C107_violated_unpin is a program; C107_violated_unpin_always: clearing or dropping an Unpin stack with values is undefined after every program; the tests use such a Mem). Proved for Mem that is not Unpin, and for programs which clear or drop the stack only without values. Protectors and the bytes of the field top are not modelled; calls are sequential (the type is not Sync)."
 }
}