{"id": "C01", "title": "Splitting is floor/ceil halving at the midpoint", "statement": "clone_left/split_off_left give the first floor(n/2) items and clone_right/split_off_right the remaining n - floor(n/2); left ++ right is exactly the original, nothing is lost, duplicated or reordered, and the two halves occupy adjacent memory.", "quantifier": "every slice length (0, 1, odd, even, up to usize::MAX), every handle type (RcSlice, RcSliceMut, ArcSlice, ArcSliceMut), every nesting depth of splits", "why_tests_cant": "tests use slices of 1 to 8 items; the boundary behaviour (length 0/1 short-circuits, odd lengths) must hold at every length and depth.", "anchors": ["src/rc/rc_slice.rs: left_sub, right_sub, RcSlice::clone_left/clone_right/split_off_*", "src/internal/slice_model/slice_items.rs: SliceItems::split_off_left/split_off_right", "src/arc/arc_slice.rs: left_sub, right_sub"]}
{"id": "C02", "title": "split_into_parts accepts exactly the positive powers of two", "statement": "split_into_parts(s, k) panics if k = 0 or k is not a power of two, and never panics otherwise; this holds for the shared and the unique version alike, and the check always terminates.", "quantifier": "every usize k", "why_tests_cant": "tests try 0, 56 and 672; the claim ranges over all 2^64 arguments.", "anchors": ["src/internal/bin_parts_iter.rs: BinaryPartsIter::new", "src/internal/slice_model/slice_items.rs: SliceItemsParts::new"]}
{"id": "C03", "title": "Shared parts iteration yields each part once, in position, under any walk", "statement": "For a slice split into k = 2^m parts, the i-th call to next() returns part i and the j-th call to next_back() returns part k-1-j, where part i is obtained by m halvings directed by the binary digits of i; after k calls in total both directions return None for ever; a clone of the iterator continues independently from the same point.", "quantifier": "every m, every slice, every interleaving of next and next_back of any length", "why_tests_cant": "tests check all walks for k = 4 and one walk for k = 32; there are 2^k walks and unboundedly many k.", "anchors": ["src/internal/bin_parts_iter.rs: BinaryPartsIter::next, next_back, greatest_power_of_2_factor", "src/rc/rc_slice.rs: RcSliceParts", "src/arc/arc_slice.rs: ArcSliceParts"]}
{"id": "C04", "title": "Unique parts iteration yields each part once, in position, under any walk", "statement": "Same statement for RcSliceMut/ArcSliceMut::split_into_parts: next()/next_back() return disjoint unique parts at the right position under any interleaving, and None for ever after k calls.", "quantifier": "every m, every slice (zero-sized items included), every interleaving of next and next_back", "why_tests_cant": "exponentially many walks; lengths not divisible by k make parts of different sizes at positions that depend on the bit pattern of the index.", "anchors": ["src/internal/slice_model/slice_items.rs: SliceItemsParts::next, next_back", "src/rc/rc_slice_mut.rs: RcSliceMutParts", "src/arc/arc_slice_mut.rs: ArcSliceMutParts"]}
{"id": "C05", "title": "Shared and unique splitting cut at the same places", "statement": "For the same slice and the same number of parts, the i-th part yielded by the shared iterator covers exactly the same index range as the i-th part yielded by the unique iterator.", "quantifier": "every length n, every k = 2^m, every i < k", "why_tests_cant": "two different algorithms (deque of halves vs. bit walk over the index) must agree everywhere.", "anchors": ["src/internal/bin_parts_iter.rs: BinaryPartsIter", "src/internal/slice_model/slice_items.rs: SliceItemsParts"]}
{"id": "C06", "title": "Parts are roughly even", "statement": "Every part of an n-item slice split into k parts has floor(n/k) or ceil(n/k) items, and the part lengths sum to n.", "quantifier": "every n, every k = 2^m (including k > n), every part", "why_tests_cant": "depends on arithmetic of iterated floor/ceil halving for all n and k.", "anchors": ["src/internal/slice_model/slice_items.rs: SliceItemsParts", "src/internal/bin_parts_iter.rs: BinaryPartsIter", "src/rc/rc_slice.rs: RcSliceParts (doc comment: \"roughly-even subslices\")"]}
{"id": "C07", "title": "Iterator lengths are exact", "statement": "len(), size_hint() and count() of every iterator equal the number of items/parts that will still be yielded, at every point of every walk.", "quantifier": "every iterator type, every reachable iterator state", "why_tests_cant": "ExactSizeIterator is a contract other code relies on for every state, tests sample a handful.", "anchors": ["src/internal/macros/iter.rs: exact_size_hint, exact_count", "src/internal/slice_model/slice_items.rs: len", "src/internal/bin_parts_iter.rs: len"]}
{"id": "C08", "title": "as_slice shows exactly the remaining items", "statement": "as_slice()/as_mut_slice() of a parts iterator is the concatenation of the parts not yet yielded, in order, one contiguous range; it is empty once the iterator is exhausted. For zero-sized items its length is the number of remaining items.", "quantifier": "every n, every k = 2^m, every reachable (yielded front, yielded back) pair", "why_tests_cant": "the range is recomputed by an independent bit walk / from the ends of a deque; a mismatch at one (n, k, front, back) would expose items owned by someone else.", "anchors": ["src/internal/slice_model/slice_items.rs: SliceItemsParts::as_raw_slice_parts", "src/internal/bin_parts_iter.rs: BinaryPartsIter::as_slice"]}
{"id": "C09", "title": "Shared parts iteration never outgrows its preallocated deque", "statement": "The deque of pending subslices never holds more than the capacity reserved at construction (1 if k <= 2, else 2*log2(k) - 2), not even in the middle of a call, so iteration never reallocates.", "quantifier": "every k = 2^m, every walk, every intermediate step of every call", "why_tests_cant": "asserted only by debug_assert on sampled walks; the comment in the source calls the argument hand waving.", "anchors": ["src/internal/bin_parts_iter.rs: BinaryPartsIter::new (cap), debug_assert_eq!(initial_cap, ..)"]}
{"id": "C10", "title": "next and next_back commute", "statement": "The state of a shared parts iterator depends only on how many times next and next_back were called, not on the order of the calls.", "quantifier": "every k = 2^m, every pair of walks with equal counts", "why_tests_cant": "claimed in a comment (\"It turns out that...\"); there are exponentially many orders.", "anchors": ["src/internal/bin_parts_iter.rs: comment before impl Iterator for BinaryPartsIter"]}
{"id": "C11", "title": "Consuming iteration moves every item out exactly once, in order, under any walk", "statement": "For into_iter() on a unique slice, any interleaving of next, next_back, split_off_from and split_off_to hands out every item exactly once; front calls go left to right and back calls right to left; as_slice is always the items not yet handed out; after exhaustion both directions return None for ever.", "quantifier": "every slice, every walk, every split point; zero-sized items included", "why_tests_cant": "unbounded walks; zero-sized items use an index encoding instead of pointers.", "anchors": ["src/internal/slice_model/slice_items.rs: SliceItemsIter", "src/rc/rc_slice_mut.rs: RcSliceMutIter", "src/arc/arc_slice_mut.rs: ArcSliceMutIter"]}
{"id": "C12", "title": "split_off_from/split_off_to boundaries", "statement": "On an item iterator with n items left, split_off_from(at) and split_off_to(at) panic exactly when at > n; otherwise the two iterators hold the first at and last n - at items; a panicking call leaves the iterator unchanged.", "quantifier": "every iterator state, every usize at", "why_tests_cant": "boundary at = n and zero-sized types for every n.", "anchors": ["src/internal/slice_model/slice_items.rs: SliceItemsIter::split_off_from, split_off_to"]}
{"id": "C13", "title": "Index and pointer arithmetic never overflows or leaves the slice", "statement": "No usize addition, subtraction or pointer offset performed by splitting, iterating, or computing as_slice over- or underflows or produces an address outside [start, start + len * size_of T], for both zero-sized and ordinary item types.", "quantifier": "every slice that can exist (len * size <= address space), every k, every iterator state", "why_tests_cant": "overflow shows only at extreme lengths or part counts that cannot be allocated in a test.", "anchors": ["src/internal/slice_model/slice_items.rs: zst_utils::PtrOrIdx, PtrOrIdxRange", "src/internal/bin_parts_iter.rs: as_slice", "src/internal/slice_model/slice_items.rs: as_raw_slice_parts"]}
{"id": "C14", "title": "RcSlice API is memory safe for every history", "statement": "No sequence of calls to the RcSlice, WeakSlice, RcSliceMut and iterator API ever touches a freed allocation, reads or drops an item that was already dropped or moved out, or decrements a reference count below zero.", "quantifier": "every finite history of API calls on any number of buffers and handles", "why_tests_cant": "ownership is shared between a tree of cached subslices; the bad orders are specific deep histories.", "anchors": ["src/rc/rc_slice.rs", "src/rc/rc_slice_mut.rs", "src/internal/slice_model/slice_alloc.rs"]}
{"id": "C15", "title": "Items are dropped exactly when their last covering strong handle goes away", "statement": "After every call, an item is still alive if and only if some RcSlice, RcSliceMut, or iterator handle covers its position; the call that removes the last covering handle drops it, exactly once. Weak handles and cached internal nodes do not count.", "quantifier": "every history, every item", "why_tests_cant": "the drop logic decides which half to drop from the presence of cached children; tests cover trees of depth two.", "anchors": ["src/rc/rc_slice.rs: impl Drop for RcSliceData", "src/internal/slice_model/slice_items.rs: impl Drop for SliceItems/SliceItemsIter/SliceItemsParts"]}
{"id": "C16", "title": "No leaks in the Rc version", "statement": "Once all handles (strong, weak, unique, iterators) are gone, every item has been dropped or moved out, every buffer is deallocated, and every internal node and guard is deallocated (no reference cycle survives).", "quantifier": "every history ending with no handles", "why_tests_cant": "cycles between guards (child to parent strong, parent to child weak) could survive only in particular creation orders.", "anchors": ["src/rc/rc_slice.rs: IntoMutGuard, GetMutGuard, forget_items"]}
{"id": "C17", "title": "A buffer is freed once, and only after all its items are gone", "statement": "The allocation behind a slice is released at most once, never while any of its items is alive, and is alive whenever a handle covers at least one of its items.", "quantifier": "every history", "why_tests_cant": "depends on field drop order and on which handles carry the allocation reference (zero-length ones may not).", "anchors": ["src/internal/slice_model/slice_alloc.rs: Drop for SliceAlloc", "src/rc/rc_slice_mut.rs: alloc field", "src/rc/rc_slice.rs: alloc field"]}
{"id": "C18", "title": "RcSlice::get_mut succeeds exactly when it is safe", "statement": "get_mut(h) returns Some if and only if no other RcSlice handle lies on the same subslice, an enclosing subslice it was split from, or a subslice split from it, and no WeakSlice refers to the same subslice or one split from it.", "quantifier": "every history, every handle", "why_tests_cant": "the answer is computed from two reference counts, which must encode the whole handle configuration in every reachable state (including gaps in the hierarchy and re-created guards).", "anchors": ["src/rc/rc_slice.rs: RcSlice::get_mut, IntoMutGuard, GetMutGuard"]}
{"id": "C19", "title": "A mutable borrow from RcSlice::get_mut is exclusive for as long as it can live", "statement": "After get_mut(h) returned Some, no sequence of calls that does not use h can produce a handle whose items overlap the borrowed slice.", "quantifier": "every history before the call, every continuation not using h", "why_tests_cant": "a WeakSlice could be upgraded at any later moment; tests check a few.", "anchors": ["src/rc/rc_slice.rs: RcSlice::get_mut, WeakSlice::upgrade, ensure_into_mut_guard"]}
{"id": "C20", "title": "RcSlice::into_mut succeeds exactly when no other strong handle overlaps, and otherwise returns the handle unchanged", "statement": "into_mut(h) returns Ok if and only if no other RcSlice lies on the same, an enclosing, or a contained subslice; on Err the returned handle and every other handle are exactly as before.", "quantifier": "every history, every handle", "why_tests_cant": "same as C18, and the error path must restore the counts.", "anchors": ["src/rc/rc_slice.rs: RcSlice::into_mut", "src/rc/rc_slice_mut.rs: TryFrom<RcSlice>"]}
{"id": "C21", "title": "into_mut transfers ownership without dropping, and invalidates weak handles", "statement": "A successful into_mut drops no item, yields a unique slice with the same items, makes every WeakSlice into that subslice or its descendants permanently non-upgradeable, and from then on no other handle overlaps it.", "quantifier": "every history (any tree of cached descendants below the converted node)", "why_tests_cant": "forget_items recurses over a cached tree whose shape depends on the history.", "anchors": ["src/rc/rc_slice.rs: RcSliceData::into_mut, forget_items"]}
{"id": "C22", "title": "WeakSlice::upgrade succeeds exactly when the subslice is still held as a whole", "statement": "upgrade returns Some if and only if some RcSlice handle on the same subslice or an enclosing one it was split from is alive; the handle obtained shows the same subslice as the one that was downgraded.", "quantifier": "every history", "why_tests_cant": "requires the internal node to stay cached and linked for exactly as long as some ancestor handle lives.", "anchors": ["src/rc/rc_slice.rs: WeakSlice::upgrade"]}
{"id": "C23", "title": "WeakSlice::new never upgrades", "statement": "A WeakSlice made by WeakSlice::new (or cloned from one) never upgrades.", "quantifier": "every history", "why_tests_cant": "must hold for ever, whatever else happens.", "anchors": ["src/rc/rc_slice.rs: WeakSlice::new", "src/arc/arc_slice.rs: WeakSlice::new"]}
{"id": "C24", "title": "Weak handles keep nothing alive", "statement": "Creating, cloning or dropping WeakSlices never changes which items are alive.", "quantifier": "every history", "why_tests_cant": "quantifies over pairs of histories.", "anchors": ["src/rc/rc_slice.rs: WeakSlice", "src/rc/rc_slice.rs: RcSlice::downgrade"]}
{"id": "C25", "title": "Shared contents are immutable to everyone else", "statement": "The items seen through an RcSlice never change as a result of calls on other handles; the items of a unique handle change only through that handle.", "quantifier": "every history, every handle, every continuation not using it", "why_tests_cant": "aliasing bugs need particular configurations of overlapping handles.", "anchors": ["src/rc/rc_slice.rs: Deref, get_mut", "src/rc/rc_slice_mut.rs: DerefMut"]}
{"id": "C26", "title": "into_immut and into_mut are inverse", "statement": "into_immut followed by into_mut (and vice versa) succeeds and returns a handle on the same items, dropping none; the new shared handle is not affected by old weak handles or guards.", "quantifier": "every unique handle in every history", "why_tests_cant": "old guards from the previous life of the node may still be alive.", "anchors": ["src/rc/rc_slice_mut.rs: RcSliceMut::into_immut", "src/rc/rc_slice.rs: from_unique_data, into_mut"]}
{"id": "C27", "title": "Cloning a unique slice is a deep, independent copy", "statement": "RcSliceMut::clone yields a handle with equal items in a fresh buffer; later changes through either are invisible through the other, and dropping one does not affect the other.", "quantifier": "every history and continuation", "why_tests_cant": "independence is a statement about all continuations.", "anchors": ["src/rc/rc_slice_mut.rs: impl Clone for RcSliceMut", "src/internal/macros/iter.rs: from_iter_via_vec"]}
{"id": "C28", "title": "Repeated subslicing refers to the same memory", "statement": "Any two handles obtained by the same sequence of left/right steps from clones of the same slice view the same memory, no matter when they were created; conversely handles into different halves never overlap.", "quantifier": "every history, every pair of handles", "why_tests_cant": "the internal cache of children must be hit in every order.", "anchors": ["src/rc/rc_slice.rs: RcSliceData::clone_child"]}
{"id": "C29", "title": "Mutability is tracked per subslice", "statement": "Handles inside one half of a slice never prevent get_mut or into_mut on a handle inside the other half, once no handle covers both.", "quantifier": "every history", "why_tests_cant": "per-subslice tracking is the purpose of the crate; it must hold for all trees.", "anchors": ["src/rc/rc_slice.rs: IntoMutGuard, GetMutGuard"]}
{"id": "C30", "title": "Comparison, hashing and formatting depend on the visible items only", "statement": "Equality, ordering, hashing and Debug output of handles depend only on the items they show, so equal slices compare equal and hash alike whatever buffers and trees they live in, and a handle hashes like the slice it borrows as.", "quantifier": "every pair of handles in every history, every item type", "why_tests_cant": "Borrow/Hash/Eq coherence is a universally quantified law.", "anchors": ["src/internal/macros/cmp.rs", "src/internal/macros/hash.rs", "src/internal/macros/borrow.rs", "src/internal/macros/fmt.rs"]}
{"id": "C31", "title": "Re-entrant destructors are safe", "statement": "If dropping an item runs user code that itself calls the RcSlice API on other handles (upgrading, cloning, dropping, converting), memory safety (C14) still holds.", "quantifier": "every history in which user code runs at every item drop", "why_tests_cant": "requires nested histories at every possible point in a drop cascade.", "anchors": ["src/rc/rc_slice.rs: impl Drop for RcSliceData", "src/internal/slice_model/slice_items.rs: Drop impls"]}
{"id": "C32", "title": "Dropping a partly used iterator drops exactly the remaining items", "statement": "Dropping an item or parts iterator at any point drops each not-yet-yielded item exactly once and none of the yielded ones.", "quantifier": "every walk prefix", "why_tests_cant": "every prefix of every walk.", "anchors": ["src/internal/slice_model/slice_items.rs: Drop for SliceItemsIter, SliceItemsParts", "src/rc/rc_slice.rs: RcSliceParts"]}
{"id": "C33", "title": "A rejected split_into_parts releases the slice", "statement": "If split_into_parts panics, the consumed handle is dropped as if by drop (no leak, no double drop).", "quantifier": "every handle in every history, every invalid part count", "why_tests_cant": "panic paths with mem::forget nearby.", "anchors": ["src/internal/slice_model/slice_items.rs: SliceItemsParts::new", "src/internal/bin_parts_iter.rs: BinaryPartsIter::new"]}
{"id": "C34", "title": "Zero-length subslices need no allocation", "statement": "A zero-length subslice handle keeps no buffer alive (field comment: \"We'll let this be None for length zero sublices. They don't need an underlying allocation\").", "quantifier": "every history, every zero-length handle", "why_tests_cant": "depends on which side of which split became empty.", "anchors": ["src/rc/rc_slice_mut.rs: alloc field, split_off_right", "src/rc/rc_slice.rs: alloc field", "src/arc/arc_slice_mut.rs: alloc field"]}
{"id": "C35", "title": "Gate is a mutual-exclusion latch", "statement": "At most one live Latch exists per Gate at any time; try_close succeeds exactly when no latch is live; the gate is open whenever no latch is live; wait_till_open returns only at a moment the gate was open.", "quantifier": "every number of threads, every interleaving", "why_tests_cant": "interleavings are unbounded.", "anchors": ["src/internal/gate.rs"]}
{"id": "C36", "title": "Concurrent subslicing converges to one child", "statement": "When any number of threads call clone_left (or clone_right) on the same ArcSlice concurrently, all obtain handles to one and the same child subslice, and a thread that loses the race discards its speculative node without dropping any item.", "quantifier": "every number of threads, every interleaving", "why_tests_cant": "the losing path needs a precise interleaving.", "anchors": ["src/arc/arc_slice.rs: ArcSliceData::clone_child"]}
{"id": "C37", "title": "ArcSlice never drops an item twice or too early", "statement": "Under any interleaving of clone, clone_left/right, split, downgrade, upgrade and drop on any number of threads, every item is dropped exactly once, after the last covering handle is gone, and no freed node is accessed.", "quantifier": "every number of threads, every interleaving of atomic steps", "why_tests_cant": "unbounded interleavings.", "anchors": ["src/arc/arc_slice.rs: ArcSliceData, Drop"]}
{"id": "C38", "title": "ArcSlice::get_mut is exclusive", "statement": "If get_mut(h) returns Some, no other thread has or can obtain a handle overlapping h while the borrow lives.", "quantifier": "every number of threads, every interleaving, every set of strong and weak handles", "why_tests_cant": "needs a WeakSlice upgraded at a particular moment. (False of the code: see C38 negations.)", "anchors": ["src/arc/arc_slice.rs: ArcSlice::get_mut (TODO comment), DataGuard"]}
{"id": "C39", "title": "ArcSlice::into_mut is exclusive", "statement": "If into_mut(h) returns Ok, no other thread has or can obtain a handle overlapping the unique slice.", "quantifier": "every number of threads, every interleaving, every set of strong and weak handles", "why_tests_cant": "needs a particular interleaving with WeakSlice::upgrade. (False of the code: see C39 negation.)", "anchors": ["src/arc/arc_slice.rs: ArcSlice::into_mut, forget_items, WeakSlice::upgrade"]}
{"id": "C40", "title": "ArcSlice releases all memory", "statement": "Once all handles are gone every internal allocation has been released.", "quantifier": "every history", "why_tests_cant": "leaks are invisible to the tests. (False of the code: the boxed weak guard pointer is never freed.)", "anchors": ["src/arc/arc_slice.rs: ArcSliceData.guard, DataGuard::guard, Drop for ArcSliceData"]}
{"id": "C41", "title": "Guard acquisition is lock-free", "statement": "A thread in DataGuard::guard retries only if another thread installed a guard in the meantime, and a gate closed by get_mut/into_mut is reopened by the same call.", "quantifier": "every interleaving", "why_tests_cant": "liveness under all schedules.", "anchors": ["src/arc/arc_slice.rs: DataGuard::guard", "src/internal/gate.rs"]}
{"id": "C42", "title": "Used from one thread, ArcSlice behaves like RcSlice", "statement": "For every single-threaded history in which RcSlice::get_mut is never refused merely because of WeakSlices (in particular every history without get_mut and every history without downgrade), the calls of the Arc types return the same results and drop the same items as the corresponding calls of the Rc types. In all other histories the only difference is that ArcSlice::get_mut may be granted although WeakSlices exist; it is never granted while another shared handle overlaps, and is refused only if one does or a WeakSlice to the very slice exists.", "quantifier": "every single-threaded history", "why_tests_cant": "two different guard implementations must agree on all histories.", "anchors": ["src/arc/arc_slice.rs", "src/rc/rc_slice.rs"]}
{"id": "C43", "title": "RcSliceMut/ArcSliceMut iterators keep the allocation exactly while they need it", "statement": "A unique handle or iterator that still owns at least one (non-zero-sized) item holds a reference to the allocation, and item/parts iterators give their reference up at the moment they run out of items.", "quantifier": "every walk", "why_tests_cant": "off-by-one in any branch frees memory early or late.", "anchors": ["src/rc/rc_slice_mut.rs: RcSliceMutIter::next, split_off_*, RcSliceMutParts::next", "src/arc/arc_slice_mut.rs"]}
{"id": "C44", "title": "No call hangs", "statement": "However the threads are scheduled, as long as every thread keeps getting turns and no new calls are made, every call of the ArcSlice API that has begun eventually returns: there is no deadlock at the gates of get_mut/into_mut and no endless retry loop, and the calls in flight can make only finitely many steps.", "quantifier": "every number of threads, every history, every fair schedule", "why_tests_cant": "a test observes finitely many schedules; a hang needs the one that starves or deadlocks a thread.", "anchors": ["src/arc/arc_slice.rs: DataGuard::guard, clone_left, clone_right, get_mut, into_mut, downgrade", "src/internal/gate.rs"]}
{"id": "C45", "title": "ArcSlice::get_mut and into_mut are refused while the slice is shared", "statement": "If another handle that overlaps an ArcSlice is held from the beginning to the end of a call of get_mut or into_mut on that slice, the call is refused and gives back the same handle, whatever other threads do meanwhile; get_mut is refused also if a WeakSlice made from the same handle (or from a clone of either) exists all that time.", "quantifier": "every number of threads, every history, every interleaving during the call", "why_tests_cant": "the counts are read one after the other while other threads change them; tests cannot try all interleavings.", "anchors": ["src/arc/arc_slice.rs: ArcSlice::get_mut, into_mut, downgrade, DataGuard"]}
{"id": "C46", "title": "Iterators over the parts of a shared slice are memory safe and leave other handles alone", "statement": "Whatever sequence of calls is made on RcSlice handles and on the iterators that split_into_parts returns (next, next_back, clone, len, as_slice, drop), no memory is misused and every call returns; calls on the handles the user holds behave as they do after some history without such iterators; a handle goes on showing the same items; none of these calls other than dropping changes or drops an item; a count that is not a power of two panics and drops the slice.", "quantifier": "every history of calls on handles and iterators, every size, every number of parts", "why_tests_cant": "the iterator splits and drops reference counted nodes shared with other handles; the histories that interleave several iterators, their clones and other handles are unbounded.", "anchors": ["src/rc/rc_slice.rs: RcSlice::split_into_parts, RcSliceParts", "src/internal/bin_parts_iter.rs"]}
{"id": "C47", "title": "An iterator over shared parts yields the halved parts whatever else happens", "statement": "From the moment an RcSlice is turned into an iterator over 2^m parts, its next and next_back return in order the parts that repeated halving gives, each exactly once and from both ends, whatever is done meanwhile to other handles, other iterators or the parts already yielded; len and as_slice say what is left; clones are independent and yield what the original would; each part is a handle of its own.", "quantifier": "every history before and during the walk, every walk, every m, every slice", "why_tests_cant": "the walk is interleaved with unboundedly many other calls on the shared structure.", "anchors": ["src/rc/rc_slice.rs: RcSlice::split_into_parts, RcSliceParts::next, next_back, clone, as_slice", "src/internal/bin_parts_iter.rs: BinaryPartsIter"]}
{"id": "C48", "title": "An iterator over shared parts owns exactly what it has not yielded", "statement": "An item is alive exactly as long as a handle or an iterator that has not yielded it yet shows it; while an iterator still has to yield an item, get_mut and into_mut of slices showing the item are refused, and items under a granted mutable access are shown by no iterator, nor ever will be; dropping an iterator drops exactly the items nothing else shows; when all handles and iterators are gone everything has been released.", "quantifier": "every history of calls on handles and iterators", "why_tests_cant": "leaks and early drops depend on the order in which parts, clones of the iterator and other handles go away.", "anchors": ["src/rc/rc_slice.rs: RcSliceParts, RcSlice::get_mut, into_mut", "src/internal/bin_parts_iter.rs"]}
{"id": "C49", "title": "A WeakSlice of the Arc version can be upgraded exactly while its slice is alive", "statement": "WeakSlice::upgrade returns an ArcSlice to the slice it was made from whenever an ArcSlice to that slice, or to one it was cut from, is held from the beginning to the end of the call, whatever other threads do meanwhile. Once it has failed, no ArcSlice to that slice or to one it was cut from exists or ever will, and upgrade fails for all WeakSlices to that slice for good.", "quantifier": "every number of threads, every history, every interleaving during the call", "why_tests_cant": "the strong count is read and increased while other threads clone, subslice and drop; tests cannot try all interleavings.", "anchors": ["src/arc/arc_slice.rs: WeakSlice::upgrade, ArcSlice::from_data, ArcSliceData::clone_child"]}
{"id": "C50", "title": "Using ArcSlices from many threads is free of data races", "statement": "Whenever two accesses to the same item are made by calls or through handles of the Arc types, and one of them overwrites, moves, drops or frees the item, one of the two happens before the other in the sense of the Rust memory model: the knowledge is passed on by the handles themselves and by the acquiring and releasing accesses to the atomic counters and pointers.", "quantifier": "every number of threads, every history, every interleaving, every pair of accesses", "why_tests_cant": "data races need particular interleavings, and are invisible on most machines even when they happen. (False of get_mut: see the negations.)", "anchors": ["src/arc/arc_slice.rs: ArcSlice::get_mut, into_mut, DataGuard::guard, Drop for ArcSliceData", "src/arc/arc_slice_mut.rs", "src/internal/gate.rs"]}
{"id": "C51", "title": "What ArcSlices share among threads is initialized before it is used and used before it is destroyed", "statement": "Handles to parts of the same array share data allocated by the library itself: a node for every subslice anyone has asked for, guards, and boxed weak references to guards, made by whichever call needs them first. In every execution such an object is made exactly once, that happens before (in the sense of the Rust memory model) every other access to it, all accesses to its contents happen before the contents are destroyed, it is destroyed at most once, and afterwards nobody accesses its contents. So calls on handles, dropping them, and reading items through them have no data races on the bookkeeping.", "quantifier": "every number of threads, every history, every interleaving, every pair of accesses, all orderings std may use for reading counts and for upgrade", "why_tests_cant": "a pointer that is published too early, or memory freed too early, shows up in few interleavings, and on some machines never", "anchors": ["src/arc/arc_slice.rs: ArcSliceData::clone_left, clone_right, DataGuard::guard, Drop for ArcSliceData", "src/arc/arc_slice_mut.rs", "src/internal/gate.rs"]}
{"id": "C52", "title": "RcSlice survives destructors that panic", "statement": "If the destructor of an item panics, whether the panic is caught inside another destructor or by the caller, the library stays memory safe in everything done afterwards: nothing is dropped twice or used after it was dropped or freed, and all items covered by handles stay as they are. The rest of the range being dropped is still dropped and the memory of the array is still returned; at most items that no handle covers any more are not dropped.", "quantifier": "every history in which user code runs at every item drop, makes any calls and panics, at every nesting depth", "why_tests_cant": "a panic has to be tried at every item drop of every history, and its consequences in every continuation.", "anchors": ["src/rc/rc_slice.rs: impl Drop for RcSliceData", "src/internal/slice_model/slice_items.rs: Drop impls", "src/internal/slice_model/slice_alloc.rs"]}
{"id": "C53", "title": "ArcSlice survives destructors that panic", "statement": "If the destructor of an item panics, whether during a drop or during WeakSlice::upgrade, the library stays memory safe in everything that other threads do at the time and that anyone does afterwards: nothing is dropped twice or used after it was dropped or freed, all items covered by handles stay as they are, exclusive access stays exclusive, and no thread waits forever. The rest of the slice being dropped is still dropped and all memory is still released; at most items that no handle covers any more are not dropped.", "quantifier": "every number of threads, every interleaving of their calls, and every choice of item destructors that panic", "why_tests_cant": "a panic has to be tried at every item drop of every schedule, and its consequences in every continuation by every thread.", "anchors": ["src/arc/arc_slice.rs: impl Drop for ArcSliceData, DataGuard::guard, ArcSlice::from_data", "src/internal/slice_model/slice_items.rs: Drop impls", "src/internal/slice_model/slice_alloc.rs"]}
{"id": "C54", "title": "Item destructors run in drops and in upgrade only", "statement": "The destructor of an item of an ArcSlice is run by a drop of a handle or by WeakSlice::upgrade, which can be left with the last reference to a slice whose handles were dropped by other threads meanwhile. No other call runs item destructors: clone, clone_left, clone_right, downgrade, get_mut, into_mut, splitting and iterating do not, whatever other threads do. So these calls neither run nor panic because of foreign code.", "quantifier": "every number of threads and every interleaving of their calls", "why_tests_cant": "clone_left and clone_right also obtain temporary references to larger slices; that they are never the last ones has to hold at every step of every schedule.", "anchors": ["src/arc/arc_slice.rs: DataGuard::guard, ArcSlice::clone_left, ArcSlice::clone_right, WeakSlice::upgrade, impl Drop for ArcSliceData"]}
{"id": "C55", "title": "The calls on ArcSlice return what they promise under any interference", "statement": "What a call on an ArcSlice, ArcSliceMut or WeakSlice returns depends on the handle it was made on only, and not on what other threads do before it returns: new returns a slice of exactly the given items; clone returns a slice of the same range; clone_left and clone_right return the first and the second half of the range; get_mut and into_mut, when they succeed, give the same range, and into_mut gives the slice back when it refuses; into_immut gives the same range; split_off on an ArcSliceMut gives the two halves; downgrade gives a weak reference to this slice, and upgrade, when it succeeds, the slice that was downgraded. The range of a handle stays the same until a call takes the handle.", "quantifier": "every number of threads, every interleaving of their calls, every slice and every choice of item destructors that panic", "why_tests_cant": "two threads that split the same slice at once share subslices, one of them using what the other one has allocated; that both get the right half has to be checked at every point where they can interfere.", "anchors": ["src/arc/arc_slice.rs: ArcSlice::new, ArcSlice::clone_left, ArcSlice::clone_right, ArcSlice::get_mut, ArcSlice::into_mut, ArcSlice::downgrade, WeakSlice::upgrade, impl Clone for ArcSlice", "src/arc/arc_slice_mut.rs: ArcSliceMut::split_off_left, ArcSliceMut::split_off_right, ArcSliceMut::into_immut"]}
{"id": "C56", "title": "Dropping an ArcSlice drops only items that it showed", "statement": "When a handle (ArcSlice, ArcSliceMut, its iterator or WeakSlice) is dropped, the items dropped by this are items the handle showed, whatever other threads do in the meantime. If a destructor panics during the drop, the items that leak because of this are also ones the handle showed. If all items the handle showed are shown by other handles at some time, the drop runs no destructor and cannot panic at that time.", "quantifier": "every number of threads, every interleaving of their calls, every set of slices, subslices and weak references, and every choice of item destructors that panic", "why_tests_cant": "a drop may free subslices that were cached by other threads and enlarge what it owns while it runs, depending on how the reference counts are interleaved.", "anchors": ["src/arc/arc_slice.rs: impl Drop for ArcSliceData, ArcSlice", "src/arc/arc_slice_mut.rs: ArcSliceMut", "src/internal/slice_model/slice_items.rs: impl Drop for SliceItems"]}
{"id": "C57", "title": "split_off and ArcSliceParts give the specified parts in spite of other threads", "statement": "split_off_left and split_off_right on an ArcSlice return one half and leave the other half in place, and every call of next or next_back on an ArcSliceParts (or, in builds without debug assertions, on a clone of it) returns the next part at that end of those that the earlier calls have left, or None if there are none left, whatever other threads do with other handles to the same items before, during and after; none of these calls panics, even if destructors panic in other threads, and none of them gets stuck: from every situation it can return. len is the number of parts left, and as_slice exactly their items.", "quantifier": "every number of threads and every interleaving with their calls, every slice and number of parts, every sequence of next, next_back and clone, and every choice of item destructors that panic elsewhere", "why_tests_cant": "each of these methods makes several calls of clone_left, clone_right and drop, between which other threads may create, upgrade or drop the subslices involved.", "anchors": ["src/arc/arc_slice.rs: ArcSlice::split_off_left/split_off_right/split_into_parts, ArcSliceParts", "src/internal/bin_parts_iter.rs: BinaryPartsIter"]}
{"id": "C58", "title": "after any concurrent use, the Arc types are back in a state of the single-threaded specification", "statement": "However several threads have used ArcSlice, ArcSliceMut and WeakSlice at the same time: when all their calls have returned, there is a state of the specification of single-threaded use that describes the handles, items and memory there are (each slice shows the items the specification says; handles to one subslice are handles to one member of a family), and every sequence of calls that one thread makes from then on has the results, and the effects on items and memory, of the specification. In particular nothing of the interleaving lingers on: into_mut of a non-empty slice then succeeds if all other ArcSlices are non-empty and share no item with it, and get_mut, too, if there are no WeakSlices.", "quantifier": "every number of threads and every interleaving of their calls that comes to rest, and every sequence of calls after it", "why_tests_cant": "a lost update to a count or a stale link to a subslice left by a rare interleaving shows only in the results of much later calls; a test sees the interleavings it happens to get.", "anchors": ["src/arc/arc_slice.rs: ArcSlice, ArcSliceMut, WeakSlice", "src/arc/arc_slice.rs: ArcSlice::get_mut/into_mut"]}
{"id": "C59", "title": "what a thread reads through its handles is unaffected by what other threads do", "statement": "Whatever other threads do: every ArcSlice and ArcSliceMut reads items that are there; it reads the same items for as long as its owner neither gives it away nor writes through it; a write through an ArcSliceMut, or through the result of get_mut, changes one item of that handle and nothing any other handle reads. A call on a handle that reads xs returns handles that read what the same call gives in a single-threaded program: clone reads xs, clone_left and clone_right the halves of xs, get_mut, into_mut and into_immut xs (also if refused), split_off_left and split_off_right one half and keep the other, next and next_back the first and last item of xs and keep the rest, split_off_to and split_off_from of iterators the first n items and the rest. A new slice reads the items it was made from. upgrade of a WeakSlice, if it succeeds, reads the items the slice had when upgrade was called.", "quantifier": "every number of other threads, every interleaving of their calls, writes and panics with the call, and every state of the slice; no upgrade overlapping with into_mut, or with get_mut and the use of its result", "why_tests_cant": "a test checks the contents of the slices in the interleavings it happens to get; a stray write or an early reuse of memory shows in rare ones only.", "anchors": ["src/arc/arc_slice.rs: Deref for ArcSlice", "src/arc/arc_slice_mut.rs: Deref for ArcSliceMut", "src/arc/arc_slice.rs: ArcSlice::clone_left/get_mut/into_mut, WeakSlice::upgrade", "src/arc/arc_slice_mut.rs: ArcSliceMut::split_off_left/into_immut, ArcSliceMutIter"]}
{"id": "C60", "title": "ArcSlice does not depend on loads finding the latest value, except for strong_count", "statement": "Rust lets a load of an atomic variable find a value that has been overwritten meanwhile. Suppose that every load of a child pointer, of the pointer to a guard and of a weak count finds any value the variable ever had, and that strong_count, in get_mut and into_mut, finds any former value that makes the call refuse. Then ArcSlice keeps its promises: no freed memory is accessed, all items a handle covers are there, an item is dropped at most once and only when no handle covers it, handles keep their items, whoever has exclusive access to an item is the only one to see it, all is released in the end, and no thread waits forever.", "quantifier": "every number of threads, every interleaving, every choice of panicking destructors, and every choice of former values found by loads; no upgrade overlapping with into_mut, or with get_mut and the use of its result", "why_tests_cant": "the machines tests are run on produce few of the values the memory model allows, and tests cannot choose them.", "anchors": ["src/arc/arc_slice.rs: ArcSlice::clone_child, DataGuard::guard, ArcSlice::get_mut, into_mut", "src/internal/gate.rs"]}
{"id": "C61", "title": "exclusive access does not depend on loads finding the latest value", "statement": "In every execution that the memory model of Rust allows, whoever gets exclusive access to an item by get_mut or into_mut is the only one to see it: also if loads of atomic variables find values that have been overwritten meanwhile, as far as the loading thread does not know of the overwriting.", "quantifier": "every number of threads, every history, every interleaving, every value that every load may find", "why_tests_cant": "the executions in question do not occur on common machines, and no test can ask for them. (False: see the negations.)", "anchors": ["src/arc/arc_slice.rs: ArcSlice::get_mut, into_mut"]}
{"id": "C62", "title": "a thread that keeps to its own handles need not know of the others", "statement": "Whatever a thread does with handles of its own (new, clone, halves, get_mut, into_mut, into_immut, split_off, iterators from both ends and their splits, downgrade, upgrade, drop, reading and writing items, in any order and depending on results in any way): among other threads it gets what it could have got if it were the only thread there is and each handle were just a list of items. In particular, iterating over an ArcSliceMut from both ends yields its items from both ends; cloning an ArcSliceMut gives a second one with the same items; replacing items through &mut replaces those and no others; split_into_parts of an ArcSliceMut yields from both ends the 2^i parts obtained by halving i times, and panics, dropping the slice, if the number of parts is not a power of two.", "quantifier": "every program of a thread, every number of other threads and whatever they do short of taking or writing through its handles, every interleaving, every panicking destructor, all items; no upgrade overlapping with exclusive access (discipline of C38/C39)", "why_tests_cant": "the programs, the interleavings and the programs of the other threads are unbounded", "anchors": ["src/arc/arc_slice_mut.rs: ArcSliceMut::split_into_parts, Clone for ArcSliceMut, ArcSliceMutIter::next, next_back, ArcSliceMutParts::next, next_back", "src/arc/arc_slice.rs: ArcSlice"]}
{"id": "C63", "title": "memory blocks are returned when nobody needs them any more, and not before", "statement": "Clones, halves, weak handles, drops and conversions of an ArcSlice on any number of threads never access the memory block of slice data or of the owner of the items after it was returned, and never return one twice. All that a handle needs is there as long as the handle is. When no call is in flight, a block is there exactly if its value is alive, if a live half of it is, or if a WeakSlice refers to it; if only WeakSlices are left, exactly what they refer to; if no handle is left, nothing.", "quantifier": "every program, every number of threads, every interleaving including when given up weak references are released, every panicking destructor; upgrade does not overlap with into_mut on something larger (discipline of C38)", "why_tests_cant": "weak counts are not observable from safe code and the interleavings of drops are unbounded", "anchors": ["src/arc/arc_slice.rs: ArcSliceData, ArcSlice, WeakSlice, ArcSliceData::child, ArcSlice::downgrade, ArcSlice::into_mut", "src/arc/arc_slice_mut.rs: ArcSliceMut"]}
{"id": "C64", "title": "whoever returns a memory block knows of all accesses to it", "statement": "When the memory block of slice data, or of the owner of the items, is given back to the allocator, every access anyone ever made to it (to its counters, to its value, making or dropping the value, by reading items through a handle) happened before that in the sense of the memory model, not just earlier in some interleaving; there are none afterwards; no block is given back twice; and it is given back as soon as the last weak reference has been dropped.", "quantifier": "every program, every number of threads, every interleaving including when given up weak references are released, whatever the threads know of each other beyond what the calls pass on; upgrade does not overlap with into_mut on something larger (discipline of C38)", "why_tests_cant": "a missing happens-before edge only shows on machines that reorder, and then rarely; the interleavings are unbounded", "anchors": ["src/arc/arc_slice.rs: ArcSliceData, ArcSlice, WeakSlice, ArcSliceData::child, ArcSlice::downgrade, ArcSlice::into_mut", "src/arc/arc_slice_mut.rs: ArcSliceMut"]}
{"id": "C65", "title": "exclusive access to a slice of one's own is granted", "statement": "If a thread has the only handle to a slice, and nobody else has a handle to a slice it was cut from or that was cut from it, nor a WeakSlice of such that could be upgraded, and no call on a slice of the same array is in flight, then get_mut and into_mut on it are granted whenever they are called later, whatever other threads do until then and meanwhile with other slices, also with slices of other items of the same array.", "quantifier": "every program, every number of threads, every interleaving before and during the call; destructors may panic; upgrade does not overlap with into_mut on something larger (discipline of C38)", "why_tests_cant": "the calls of other threads on the rest of the array touch the same shared tree, counters and guards at any moment of the call; tests see few of the interleavings", "anchors": ["src/arc/arc_slice.rs: ArcSlice::get_mut, ArcSlice::into_mut, ArcSliceData::guard, ArcSlice::clone_left, WeakSlice::upgrade"]}
{"id": "C66", "title": "Which calls on ArcSlices others can hold up", "statement": "clone, get_mut, into_mut, into_immut, drop, making a slice, and splitting, iterating and cutting an ArcSliceMut return after a bounded number of turns of their own, whatever other threads do in between, even if those go on making calls for ever; the bound is a constant for all but into_mut and drop, and for these grows linearly with the size of the slice and the number of times the whole was halved to get it. clone_left, clone_right, downgrade and upgrade have no such bound: the first three can be held up for ever by threads that call get_mut on a clone of the handle, and upgrade by threads that upgrade a clone of the WeakSlice and drop the result.", "quantifier": "every number of threads, every history before the call, every schedule and every (endless) sequence of calls of others meanwhile; destructors may panic", "why_tests_cant": "starvation needs an endless schedule; a bound on the turns has to hold for every schedule", "anchors": ["src/arc/arc_slice.rs: ArcSlice::get_mut, into_mut, clone_left, clone_right, downgrade, WeakSlice::upgrade, DataGuard::guard, impl Drop for ArcSliceData", "src/internal/gate.rs"]}
{"id": "C67", "title": "Items that are not Send stay on their thread", "statement": "ArcSlice<T>, WeakSlice<T> and their iterators are Send, and Sync, exactly if T is both; ArcSliceMut<T> and its iterators are Send exactly if T is, and Sync exactly if T is; the RcSlice types never are. A program that moves and shares handles between threads only as this permits, with items that are not Send, keeps all handles that show items of an array on the thread that made the array; only that thread gets mutable access to an item, takes items out by value, runs their destructors, or loses them in a panic.", "quantifier": "every T, every number of threads, every program that respects Send and Sync, every schedule; destructors may panic", "why_tests_cant": "the compiler accepts the unsafe impls unchecked; a wrong bound shows only in programs that make use of it", "anchors": ["src/arc/arc_slice.rs: unsafe impl Send for ArcSliceData, unsafe impl Sync for ArcSliceData", "src/internal/slice_model/slice_items.rs: unsafe impl Send, unsafe impl Sync", "src/internal/slice_model/slice_alloc.rs: unsafe impl Send, unsafe impl Sync", "src/arc/arc_slice_mut.rs", "src/internal/gate.rs"]}
{"id": "C68", "title": "Items that are not Sync are accessible to one thread at a time", "statement": "A program that moves and shares handles, references to handles, and references to items between threads only as Send and Sync permit, with items that are not Sync, never enables two threads to read or change the same item at the same time.", "quantifier": "every T that is not Sync, every number of threads, every program that respects Send and Sync, every schedule; destructors may panic", "why_tests_cant": "the compiler accepts the unsafe impls unchecked; a wrong bound shows only in programs that make use of it. (False of the code: see C68_fails.)", "anchors": ["src/arc/arc_slice.rs: unsafe impl Send for ArcSliceData, unsafe impl Sync for ArcSliceData, ArcSlice::get_mut, WeakSlice::upgrade", "src/internal/slice_model/slice_items.rs: unsafe impl Sync", "src/arc/arc_slice_mut.rs"]}
{"id": "C69", "title": "A slice needs memory for a bounded number of subslices", "statement": "However often a slice of n items and its subslices are halved, cloned, dropped, downgraded, upgraded and halved again, on however many threads: at most 3 n - 1 records of subslices (one if n = 0) are ever put to use for it, and never two for what is got by the same halvings, even counting those whose contents have been dropped; and at any time at most as many guards exist.", "quantifier": "every number of threads, every history, every schedule; destructors may panic", "why_tests_cant": "growth of memory that depends on how calls of different threads are interleaved, or on long histories, is not seen in tests of bounded length", "anchors": ["src/arc/arc_slice.rs: ArcSliceData::clone_child, clone_left, clone_right, DataGuard::guard"]}
{"id": "C70", "title": "The stack needed grows with the logarithm of the size of a slice", "statement": "If no array has more than 2^m items, no call on a handle ever has more than m + 2 invocations of one of the recursive functions active at the same time: the search for guards, the destructor of subslices, the destructor of guards, and the traversal that into_mut makes. So for lengths of 64 bits 66 are enough, and no history or interleaving makes a call overflow the stack.", "quantifier": "every number of threads, every history, every schedule, every length; destructors may panic", "why_tests_cant": "a stack overflow would need particular long histories or huge slices", "anchors": ["src/arc/arc_slice.rs: DataGuard::guard, impl Drop for ArcSliceData, ArcSliceData::forget_items, DataGuard"]}
{"id": "C71", "title": "The memory an RcSlice needs is bounded by its size", "statement": "For a slice of n items (n > 0) and all its subslices, at most 3n - 1 records of slice data are ever allocated, however often subslices are cloned, dropped and cloned again: one for each way to halve that is asked for, and never a second one. At any time there is memory for at most as many get_mut guards, and at most twice as many into_mut guards, those counted that are dropped but still pointed to by Weaks.", "quantifier": "every history of calls, re-entrant ones and panicking destructors included; every length", "why_tests_cant": "a leak of guards or repeated allocation of children shows only in long histories", "anchors": ["src/rc/rc_slice.rs: RcSliceData::clone_child, IntoMutGuard::clone_left, clone_right, GetMutGuard::clone_left, clone_right, ensure_into_mut_guard"]}
{"id": "C72", "title": "The stack an RcSlice needs grows with the logarithm of its size", "statement": "If a slice was made of at most 2^m items, then no drop of slice data or guards of its subslices is nested more than m + 3 deep, and neither is the traversal that into_mut makes nor the search for guards that upgrade makes.", "quantifier": "every history of calls, re-entrant ones and panicking destructors included; every length", "why_tests_cant": "a stack overflow would need particular long histories or huge slices", "anchors": ["src/rc/rc_slice.rs: impl Drop for RcSliceData, RcSliceData::forget_items, IntoMutGuard, GetMutGuard, ensure_into_mut_guard"]}
{"id": "C73", "title": "Only dropping handles runs item destructors in the Rc version", "statement": "In rc, the destructor of an item runs within a call only if the call is the drop of an RcSlice, an RcSliceMut or one of its iterators, or a split_into_parts that panics. No clone, clone_left, clone_right, split_off_left, split_off_right, get_mut, into_mut, into_immut, downgrade, upgrade, next, split_off_from, split_off_to, next part, nor the drop of a WeakSlice drops an item or can panic because of one.", "quantifier": "every history of calls, calls made inside destructors and after panicking destructors included; every point inside the call", "why_tests_cant": "split_off drops the slice it replaces, into_mut, next and the drop of a WeakSlice drop references to shared records; whether one of them reaches items depends on all that was done before", "anchors": ["src/rc/rc_slice.rs: RcSlice::split_off_left, RcSlice::split_off_right, RcSlice::into_mut, impl Drop for RcSliceData, WeakSlice", "src/rc/rc_slice_mut.rs: RcSliceMutIter::next, RcSliceMut::split_into_parts"]}
{"id": "C74", "title": "A handle of the Rc version keeps only logarithmically many small blocks", "statement": "Between calls, each RcSlice and each WeakSlice accounts for at most m + 2 live guards of each kind, where 2^m bounds the number of items of a slice, and each WeakSlice keeps the memory of at most one dropped slice record. When only WeakSlices are left, no item, no array, no slice record and no into_mut guard is alive, and the blocks of memory kept for guards are at most 4 (m + 2) per WeakSlice.", "quantifier": "every history of calls, re-entrant ones and panicking destructors included; every length", "why_tests_cant": "what is kept depends on the whole history: guards refer to their parents, parents to children by Weak, dropped records stay as long as a Weak does", "anchors": ["src/rc/rc_slice.rs: IntoMutGuard, GetMutGuard, WeakSlice, RcSlice::downgrade, RcSlice::clone_left, RcSlice::clone_right"]}
{"id": "C75", "title": "Reference counts of the Rc version stay small", "statement": "The number of references to anything that RcSlices share internally never exceeds the number of handles that exist and of drops that are under way by more than a small constant; the references to an array are in addition at most one per subslice in memory. So no reference count overflows, and no call aborts because of it, unless handles are leaked (mem::forget) about usize::MAX times.", "quantifier": "every history, also within destructors of items and after they panicked", "why_tests_cant": "no test can make 2^64 handles; a count that creeps up (a reference forgotten in a rarely taken path) shows only in the count", "anchors": ["src/rc/rc_slice.rs:RcSliceData,IntoMutGuard,GetMutGuard,RcSlice::clone,WeakSlice::clone,ensure_into_mut_guard", "src/internal/slice_model/slice_alloc.rs:SliceAlloc"]}
{"id": "C76", "title": "Reference counts of the Arc version stay small", "statement": "At any moment, whatever the threads do, the number of Arcs or Weaks of anything that ArcSlices share internally exceeds the number of handles that exist, of calls under way and of drops still to do by at most 3; the references to an array are in addition at most one per subslice in memory. So no reference count overflows, and no call aborts because of it, unless handles are leaked (mem::forget) about usize::MAX times.", "quantifier": "every number of threads, every history, every schedule, also in the middle of calls; destructors may panic", "why_tests_cant": "no test can make 2^64 handles; a reference kept by the loser of a race shows only in the count, and only for some interleavings", "anchors": ["src/arc/arc_slice.rs:ArcSliceData,DataGuard,ArcSlice::clone,WeakSlice::clone,clone_child,guard,forget_items", "src/internal/slice_model/slice_alloc.rs:SliceAlloc"]}
{"id": "C77", "title": "How much memory the Arc version leaks", "statement": "ArcSlice leaks small blocks (C40). The calls that leak are those that make an ArcSlice other than a copy of one: new, into_immut, clone_left, clone_right (also within split_off_left, split_off_right) and upgrade; no other call leaks, nor do destructors, panics or writes. What is leaked so far is one block for each subslice that has been made and one for each time a subslice has become used by handles again. There is no bound: for every n there is a program with one thread, one slice of two items and at most two handles at a time that, when it has dropped everything, has leaked n + 3 blocks.", "quantifier": "every program, thread interleaving and point in time; for the last sentence every n", "why_tests_cant": "a leak does not show in results; a test with a leak checker sees the number for its own program only", "anchors": ["src/arc/arc_slice.rs:ArcSliceData::with_data_and_parent,ArcSliceData::drop,DataGuard::guard,clone_child"]}
{"id": "C78", "title": "What handles of the Arc version keep in memory", "statement": "Besides what is leaked (C77): each ArcSlice keeps at most m + 2 guards alive, where 2^m bounds the number of items of an array; at any time the number of guards alive is at most m + 2 for each ArcSlice, each call under way and each drop still to do. WeakSlices keep no guards alive. Between calls, the blocks of memory of slices that have been dropped are at most one for each ArcSlice or WeakSlice. When only WeakSlices are left, there is no item, no array, no guard alive, and at most one such block for each.", "quantifier": "every number of threads, every history, every schedule; destructors may panic; every length", "why_tests_cant": "what is kept depends on the whole history: guards refer to their parents, dropped slices stay in memory as long as a part or a WeakSlice refers to them; none of this shows in results", "anchors": ["src/arc/arc_slice.rs:ArcSliceData,DataGuard,WeakSlice,ArcSlice::downgrade,clone_child,guard"]}
{"id": "C79", "title": "Calls on ArcSlices return soon if others pause", "statement": "If all other threads pause, at any moment and wherever they are in their calls, a call that is then made returns after a bounded number of steps, unless it is clone_left, clone_right or downgrade and one of the others is paused inside a get_mut or into_mut on the same slice and has closed the gate (then it waits, for as long as the others pause). downgrade takes two steps; clone_left, clone_right and upgrade take a number of steps linear in the number of times the whole was halved to get the slice, hence logarithmic in the number of items: with k halvings, at most 6 k + 15 for the first two and 6 k + 6 for upgrade. The others are as in C66. A call that is in the middle when the others pause returns too, or comes to wait for a gate one of them has closed.", "quantifier": "every number of threads, every history, every schedule up to the moment of the call, every length; destructors may have panicked before", "why_tests_cant": "that a retry loop ends if left alone has to hold for every state others may have left behind", "anchors": ["src/arc/arc_slice.rs: ArcSlice::clone_left, clone_right, downgrade, WeakSlice::upgrade, ArcSliceData::clone_child, DataGuard::guard", "src/internal/gate.rs"]}
{"id": "C80", "title": "Items are dropped from front to back", "statement": "Dropping an RcSliceMut, one of its iterators, or the last handle on an RcSlice of which no half was ever taken drops the items in order, as Vec does: while the destructor of an item runs, all items before it have been dropped, and all items after it are alive. The same holds of a split_into_parts that panics, and if a destructor panics meanwhile: the rest is dropped nevertheless, in order. It also holds of an ArcSliceMut or an iterator over one, whatever other threads do meanwhile and even if destructors panic. (It does not hold of an RcSlice of which the right half was taken at some time: that half is dropped first.)", "quantifier": "every history, every length, every moment until the drop returns; destructors of items may make any calls meanwhile; for the Arc version every interleaving and every panic", "why_tests_cant": "the order must be kept whatever was split off before and whatever the destructors do in between", "anchors": ["src/internal/slice_model/slice_items.rs: SliceItems::drop, SliceItemsIter::drop, SliceItemsParts::drop", "src/rc/rc_slice.rs: RcSliceData::drop", "src/arc/arc_slice_mut.rs: ArcSliceMut"]}
