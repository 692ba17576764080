#!/usr/bin/env python3
"""Writes ../properties.jsonl. Edit the list here."""
import json, os
P = []
def p(id, title, statement, quantifier, why, anchors):
    P.append(dict(id=id, title=title, statement=statement, quantifier=quantifier, why_tests_cant=why, anchors=anchors))

RS='src/rc/rc_slice.rs'; RM='src/rc/rc_slice_mut.rs'; AS='src/arc/arc_slice.rs'; AM='src/arc/arc_slice_mut.rs'
SI='src/internal/slice_model/slice_items.rs'; SA='src/internal/slice_model/slice_alloc.rs'; BP='src/internal/bin_parts_iter.rs'; GA='src/internal/gate.rs'; SM='src/internal/slice_model/mod.rs'

p('C01','Splitting is floor/ceil halving at the midpoint',
  'clone_left/split_off_left give the first floor(n/2) items and clone_right/split_off_right the remaining n - floor(n/2); left ++ right is exactly the original, nothing is lost, duplicated or reordered, and the two halves occupy adjacent memory.',
  'every slice length (0, 1, odd, even, up to usize::MAX), every handle type (RcSlice, RcSliceMut, ArcSlice, ArcSliceMut), every nesting depth of splits',
  'tests use slices of 1 to 8 items; the boundary behaviour (length 0/1 short-circuits, odd lengths) must hold at every length and depth.',
  [f'{RS}: left_sub, right_sub, RcSlice::clone_left/clone_right/split_off_*', f'{SI}: SliceItems::split_off_left/split_off_right', f'{AS}: left_sub, right_sub'])
p('C02','split_into_parts accepts exactly the positive powers of two',
  'split_into_parts(s, k) panics if k = 0 or k is not a power of two, and never panics otherwise; this holds for the shared and the unique version alike, and the check always terminates.',
  'every usize k', 'tests try 0, 56 and 672; the claim ranges over all 2^64 arguments.',
  [f'{BP}: BinaryPartsIter::new', f'{SI}: SliceItemsParts::new'])
p('C03','Shared parts iteration yields each part once, in position, under any walk',
  'For a slice split into k = 2^m parts, the i-th call to next() returns part i and the j-th call to next_back() returns part k-1-j, where part i is obtained by m halvings directed by the binary digits of i; after k calls in total both directions return None for ever; a clone of the iterator continues independently from the same point.',
  'every m, every slice, every interleaving of next and next_back of any length',
  'tests check all walks for k = 4 and one walk for k = 32; there are 2^k walks and unboundedly many k.',
  [f'{BP}: BinaryPartsIter::next, next_back, greatest_power_of_2_factor', f'{RS}: RcSliceParts', f'{AS}: ArcSliceParts'])
p('C04','Unique parts iteration yields each part once, in position, under any walk',
  'Same statement for RcSliceMut/ArcSliceMut::split_into_parts: next()/next_back() return disjoint unique parts at the right position under any interleaving, and None for ever after k calls.',
  'every m, every slice (zero-sized items included), every interleaving of next and next_back',
  'exponentially many walks; lengths not divisible by k make parts of different sizes at positions that depend on the bit pattern of the index.',
  [f'{SI}: SliceItemsParts::next, next_back', f'{RM}: RcSliceMutParts', f'{AM}: ArcSliceMutParts'])
p('C05','Shared and unique splitting cut at the same places',
  'For the same slice and the same number of parts, the i-th part yielded by the shared iterator covers exactly the same index range as the i-th part yielded by the unique iterator.',
  'every length n, every k = 2^m, every i < k', 'two different algorithms (deque of halves vs. bit walk over the index) must agree everywhere.',
  [f'{BP}: BinaryPartsIter', f'{SI}: SliceItemsParts'])
p('C06','Parts are roughly even',
  'Every part of an n-item slice split into k parts has floor(n/k) or ceil(n/k) items, and the part lengths sum to n.',
  'every n, every k = 2^m (including k > n), every part', 'depends on arithmetic of iterated floor/ceil halving for all n and k.',
  [f'{SI}: SliceItemsParts', f'{BP}: BinaryPartsIter', f'{RS}: RcSliceParts (doc comment: "roughly-even subslices")'])
p('C07','Iterator lengths are exact',
  'len(), size_hint() and count() of every iterator equal the number of items/parts that will still be yielded, at every point of every walk.',
  'every iterator type, every reachable iterator state', 'ExactSizeIterator is a contract other code relies on for every state, tests sample a handful.',
  ['src/internal/macros/iter.rs: exact_size_hint, exact_count', f'{SI}: len', f'{BP}: len'])
p('C08','as_slice shows exactly the remaining items',
  'as_slice()/as_mut_slice() of a parts iterator is the concatenation of the parts not yet yielded, in order, one contiguous range; it is empty once the iterator is exhausted. For zero-sized items its length is the number of remaining items.',
  'every n, every k = 2^m, every reachable (yielded front, yielded back) pair', 'the range is recomputed by an independent bit walk / from the ends of a deque; a mismatch at one (n, k, front, back) would expose items owned by someone else.',
  [f'{SI}: SliceItemsParts::as_raw_slice_parts', f'{BP}: BinaryPartsIter::as_slice'])
p('C09','Shared parts iteration never outgrows its preallocated deque',
  'The deque of pending subslices never holds more than the capacity reserved at construction (1 if k <= 2, else 2*log2(k) - 2), not even in the middle of a call, so iteration never reallocates.',
  'every k = 2^m, every walk, every intermediate step of every call', 'asserted only by debug_assert on sampled walks; the comment in the source calls the argument hand waving.',
  [f'{BP}: BinaryPartsIter::new (cap), debug_assert_eq!(initial_cap, ..)'])
p('C10','next and next_back commute',
  'The state of a shared parts iterator depends only on how many times next and next_back were called, not on the order of the calls.',
  'every k = 2^m, every pair of walks with equal counts', 'claimed in a comment ("It turns out that..."); there are exponentially many orders.',
  [f'{BP}: comment before impl Iterator for BinaryPartsIter'])
p('C11','Consuming iteration moves every item out exactly once, in order, under any walk',
  'For into_iter() on a unique slice, any interleaving of next, next_back, split_off_from and split_off_to hands out every item exactly once; front calls go left to right and back calls right to left; as_slice is always the items not yet handed out; after exhaustion both directions return None for ever.',
  'every slice, every walk, every split point; zero-sized items included', 'unbounded walks; zero-sized items use an index encoding instead of pointers.',
  [f'{SI}: SliceItemsIter', f'{RM}: RcSliceMutIter', f'{AM}: ArcSliceMutIter'])
p('C12','split_off_from/split_off_to boundaries',
  'On an item iterator with n items left, split_off_from(at) and split_off_to(at) panic exactly when at > n; otherwise the two iterators hold the first at and last n - at items; a panicking call leaves the iterator unchanged.',
  'every iterator state, every usize at', 'boundary at = n and zero-sized types for every n.',
  [f'{SI}: SliceItemsIter::split_off_from, split_off_to'])
p('C13','Index and pointer arithmetic never overflows or leaves the slice',
  'No usize addition, subtraction or pointer offset performed by splitting, iterating, or computing as_slice over- or underflows or produces an address outside [start, start + len * size_of T], for both zero-sized and ordinary item types.',
  'every slice that can exist (len * size <= address space), every k, every iterator state', 'overflow shows only at extreme lengths or part counts that cannot be allocated in a test.',
  [f'{SI}: zst_utils::PtrOrIdx, PtrOrIdxRange', f'{BP}: as_slice', f'{SI}: as_raw_slice_parts'])
p('C14','RcSlice API is memory safe for every history',
  'No sequence of calls to the RcSlice, WeakSlice, RcSliceMut and iterator API ever touches a freed allocation, reads or drops an item that was already dropped or moved out, or decrements a reference count below zero.',
  'every finite history of API calls on any number of buffers and handles', 'ownership is shared between a tree of cached subslices; the bad orders are specific deep histories.',
  [f'{RS}', f'{RM}', f'{SA}'])
p('C15','Items are dropped exactly when their last covering strong handle goes away',
  'After every call, an item is still alive if and only if some RcSlice, RcSliceMut, or iterator handle covers its position; the call that removes the last covering handle drops it, exactly once. Weak handles and cached internal nodes do not count.',
  'every history, every item', 'the drop logic decides which half to drop from the presence of cached children; tests cover trees of depth two.',
  [f'{RS}: impl Drop for RcSliceData', f'{SI}: impl Drop for SliceItems/SliceItemsIter/SliceItemsParts'])
p('C16','No leaks in the Rc version',
  'Once all handles (strong, weak, unique, iterators) are gone, every item has been dropped or moved out, every buffer is deallocated, and every internal node and guard is deallocated (no reference cycle survives).',
  'every history ending with no handles', 'cycles between guards (child to parent strong, parent to child weak) could survive only in particular creation orders.',
  [f'{RS}: IntoMutGuard, GetMutGuard, forget_items'])
p('C17','A buffer is freed once, and only after all its items are gone',
  'The allocation behind a slice is released at most once, never while any of its items is alive, and is alive whenever a handle covers at least one of its items.',
  'every history', 'depends on field drop order and on which handles carry the allocation reference (zero-length ones may not).',
  [f'{SA}: Drop for SliceAlloc', f'{RM}: alloc field', f'{RS}: alloc field'])
p('C18','RcSlice::get_mut succeeds exactly when it is safe',
  'get_mut(h) returns Some if and only if no other RcSlice handle lies on the same subslice, an enclosing subslice it was split from, or a subslice split from it, and no WeakSlice refers to the same subslice or one split from it.',
  'every history, every handle', 'the answer is computed from two reference counts, which must encode the whole handle configuration in every reachable state (including gaps in the hierarchy and re-created guards).',
  [f'{RS}: RcSlice::get_mut, IntoMutGuard, GetMutGuard'])
p('C19','A mutable borrow from RcSlice::get_mut is exclusive for as long as it can live',
  'After get_mut(h) returned Some, no sequence of calls that does not use h can produce a handle whose items overlap the borrowed slice.',
  'every history before the call, every continuation not using h', 'a WeakSlice could be upgraded at any later moment; tests check a few.',
  [f'{RS}: RcSlice::get_mut, WeakSlice::upgrade, ensure_into_mut_guard'])
p('C20','RcSlice::into_mut succeeds exactly when no other strong handle overlaps, and otherwise returns the handle unchanged',
  'into_mut(h) returns Ok if and only if no other RcSlice lies on the same, an enclosing, or a contained subslice; on Err the returned handle and every other handle are exactly as before.',
  'every history, every handle', 'same as C18, and the error path must restore the counts.',
  [f'{RS}: RcSlice::into_mut', f'{RM}: TryFrom<RcSlice>'])
p('C21','into_mut transfers ownership without dropping, and invalidates weak handles',
  'A successful into_mut drops no item, yields a unique slice with the same items, makes every WeakSlice into that subslice or its descendants permanently non-upgradeable, and from then on no other handle overlaps it.',
  'every history (any tree of cached descendants below the converted node)', 'forget_items recurses over a cached tree whose shape depends on the history.',
  [f'{RS}: RcSliceData::into_mut, forget_items'])
p('C22','WeakSlice::upgrade succeeds exactly when the subslice is still held as a whole',
  'upgrade returns Some if and only if some RcSlice handle on the same subslice or an enclosing one it was split from is alive; the handle obtained shows the same subslice as the one that was downgraded.',
  'every history', 'requires the internal node to stay cached and linked for exactly as long as some ancestor handle lives.',
  [f'{RS}: WeakSlice::upgrade'])
p('C23','WeakSlice::new never upgrades', 'A WeakSlice made by WeakSlice::new (or cloned from one) never upgrades.', 'every history', 'must hold for ever, whatever else happens.', [f'{RS}: WeakSlice::new', f'{AS}: WeakSlice::new'])
p('C24','Weak handles keep nothing alive', 'Creating, cloning or dropping WeakSlices never changes which items are alive.', 'every history', 'quantifies over pairs of histories.', [f'{RS}: WeakSlice', f'{RS}: RcSlice::downgrade'])
p('C25','Shared contents are immutable to everyone else',
  'The items seen through an RcSlice never change as a result of calls on other handles; the items of a unique handle change only through that handle.',
  'every history, every handle, every continuation not using it', 'aliasing bugs need particular configurations of overlapping handles.',
  [f'{RS}: Deref, get_mut', f'{RM}: DerefMut'])
p('C26','into_immut and into_mut are inverse', 'into_immut followed by into_mut (and vice versa) succeeds and returns a handle on the same items, dropping none; the new shared handle is not affected by old weak handles or guards.', 'every unique handle in every history', 'old guards from the previous life of the node may still be alive.', [f'{RM}: RcSliceMut::into_immut', f'{RS}: from_unique_data, into_mut'])
p('C27','Cloning a unique slice is a deep, independent copy', 'RcSliceMut::clone yields a handle with equal items in a fresh buffer; later changes through either are invisible through the other, and dropping one does not affect the other.', 'every history and continuation', 'independence is a statement about all continuations.', [f'{RM}: impl Clone for RcSliceMut', 'src/internal/macros/iter.rs: from_iter_via_vec'])
p('C28','Repeated subslicing refers to the same memory', 'Any two handles obtained by the same sequence of left/right steps from clones of the same slice view the same memory, no matter when they were created; conversely handles into different halves never overlap.', 'every history, every pair of handles', 'the internal cache of children must be hit in every order.', [f'{RS}: RcSliceData::clone_child'])
p('C29','Mutability is tracked per subslice', 'Handles inside one half of a slice never prevent get_mut or into_mut on a handle inside the other half, once no handle covers both.', 'every history', 'per-subslice tracking is the purpose of the crate; it must hold for all trees.', [f'{RS}: IntoMutGuard, GetMutGuard'])
p('C30','Comparison, hashing and formatting depend on the visible items only', 'Equality, ordering, hashing and Debug output of handles depend only on the items they show, so equal slices compare equal and hash alike whatever buffers and trees they live in, and a handle hashes like the slice it borrows as.', 'every pair of handles in every history, every item type', 'Borrow/Hash/Eq coherence is a universally quantified law.', ['src/internal/macros/cmp.rs', 'src/internal/macros/hash.rs', 'src/internal/macros/borrow.rs', 'src/internal/macros/fmt.rs'])
p('C31','Re-entrant destructors are safe', 'If dropping an item runs user code that itself calls the RcSlice API on other handles (upgrading, cloning, dropping, converting), memory safety (C14) still holds.', 'every history in which user code runs at every item drop', 'requires nested histories at every possible point in a drop cascade.', [f'{RS}: impl Drop for RcSliceData', f'{SI}: Drop impls'])
p('C32','Dropping a partly used iterator drops exactly the remaining items', 'Dropping an item or parts iterator at any point drops each not-yet-yielded item exactly once and none of the yielded ones.', 'every walk prefix', 'every prefix of every walk.', [f'{SI}: Drop for SliceItemsIter, SliceItemsParts', f'{RS}: RcSliceParts'])
p('C33','A rejected split_into_parts releases the slice', 'If split_into_parts panics, the consumed handle is dropped as if by drop (no leak, no double drop).', 'every handle in every history, every invalid part count', 'panic paths with mem::forget nearby.', [f'{SI}: SliceItemsParts::new', f'{BP}: BinaryPartsIter::new'])
p('C34','Zero-length subslices need no allocation', 'A zero-length subslice handle keeps no buffer alive (field comment: "We\'ll let this be None for length zero sublices. They don\'t need an underlying allocation").', 'every history, every zero-length handle', 'depends on which side of which split became empty.', [f'{RM}: alloc field, split_off_right', f'{RS}: alloc field', f'{AM}: alloc field'])
p('C35','Gate is a mutual-exclusion latch', 'At most one live Latch exists per Gate at any time; try_close succeeds exactly when no latch is live; the gate is open whenever no latch is live; wait_till_open returns only at a moment the gate was open.', 'every number of threads, every interleaving', 'interleavings are unbounded.', [f'{GA}'])
p('C36','Concurrent subslicing converges to one child', 'When any number of threads call clone_left (or clone_right) on the same ArcSlice concurrently, all obtain handles to one and the same child subslice, and a thread that loses the race discards its speculative node without dropping any item.', 'every number of threads, every interleaving', 'the losing path needs a precise interleaving.', [f'{AS}: ArcSliceData::clone_child'])
p('C37','ArcSlice never drops an item twice or too early', 'Under any interleaving of clone, clone_left/right, split, downgrade, upgrade and drop on any number of threads, every item is dropped exactly once, after the last covering handle is gone, and no freed node is accessed.', 'every number of threads, every interleaving of atomic steps', 'unbounded interleavings.', [f'{AS}: ArcSliceData, Drop'])
p('C38','ArcSlice::get_mut is exclusive', 'If get_mut(h) returns Some, no other thread has or can obtain a handle overlapping h while the borrow lives.', 'every number of threads, every interleaving, every set of strong and weak handles', 'needs a WeakSlice upgraded at a particular moment. (False of the code: see C38 negations.)', [f'{AS}: ArcSlice::get_mut (TODO comment), DataGuard'])
p('C39','ArcSlice::into_mut is exclusive', 'If into_mut(h) returns Ok, no other thread has or can obtain a handle overlapping the unique slice.', 'every number of threads, every interleaving, every set of strong and weak handles', 'needs a particular interleaving with WeakSlice::upgrade. (False of the code: see C39 negation.)', [f'{AS}: ArcSlice::into_mut, forget_items, WeakSlice::upgrade'])
p('C40','ArcSlice releases all memory', 'Once all handles are gone every internal allocation has been released.', 'every history', 'leaks are invisible to the tests. (False of the code: the boxed weak guard pointer is never freed.)', [f'{AS}: ArcSliceData.guard, DataGuard::guard, Drop for ArcSliceData'])
p('C41','Guard acquisition is lock-free', 'A thread in DataGuard::guard retries only if another thread installed a guard in the meantime, and a gate closed by get_mut/into_mut is reopened by the same call.', 'every interleaving', 'liveness under all schedules.', [f'{AS}: DataGuard::guard', f'{GA}'])
p('C42','Used from one thread, ArcSlice behaves like RcSlice', 'For every single-threaded history in which RcSlice::get_mut is never refused merely because of WeakSlices (in particular every history without get_mut and every history without downgrade), the calls of the Arc types return the same results and drop the same items as the corresponding calls of the Rc types. In all other histories the only difference is that ArcSlice::get_mut may be granted although WeakSlices exist; it is never granted while another shared handle overlaps, and is refused only if one does or a WeakSlice to the very slice exists.', 'every single-threaded history', 'two different guard implementations must agree on all histories.', [f'{AS}', f'{RS}'])

p('C43','RcSliceMut/ArcSliceMut iterators keep the allocation exactly while they need it', 'A unique handle or iterator that still owns at least one (non-zero-sized) item holds a reference to the allocation, and item/parts iterators give their reference up at the moment they run out of items.', 'every walk', 'off-by-one in any branch frees memory early or late.', [f'{RM}: RcSliceMutIter::next, split_off_*, RcSliceMutParts::next', f'{AM}'])
p('C44','No call hangs', 'However the threads are scheduled, as long as every thread keeps getting turns and no new calls are made, every call of the ArcSlice API that has begun eventually returns: there is no deadlock at the gates of get_mut/into_mut and no endless retry loop, and the calls in flight can make only finitely many steps.', 'every number of threads, every history, every fair schedule', 'a test observes finitely many schedules; a hang needs the one that starves or deadlocks a thread.', [f'{AS}: DataGuard::guard, clone_left, clone_right, get_mut, into_mut, downgrade', f'{GA}'])
p('C45','ArcSlice::get_mut and into_mut are refused while the slice is shared', 'If another handle that overlaps an ArcSlice is held from the beginning to the end of a call of get_mut or into_mut on that slice, the call is refused and gives back the same handle, whatever other threads do meanwhile; get_mut is refused also if a WeakSlice made from the same handle (or from a clone of either) exists all that time.', 'every number of threads, every history, every interleaving during the call', 'the counts are read one after the other while other threads change them; tests cannot try all interleavings.', [f'{AS}: ArcSlice::get_mut, into_mut, downgrade, DataGuard'])
p('C46','Iterators over the parts of a shared slice are memory safe and leave other handles alone', 'Whatever sequence of calls is made on RcSlice handles and on the iterators that split_into_parts returns (next, next_back, clone, len, as_slice, drop), no memory is misused and every call returns; calls on the handles the user holds behave as they do after some history without such iterators; a handle goes on showing the same items; none of these calls other than dropping changes or drops an item; a count that is not a power of two panics and drops the slice.', 'every history of calls on handles and iterators, every size, every number of parts', 'the iterator splits and drops reference counted nodes shared with other handles; the histories that interleave several iterators, their clones and other handles are unbounded.', [f'{RS}: RcSlice::split_into_parts, RcSliceParts', f'{BP}'])
p('C47','An iterator over shared parts yields the halved parts whatever else happens', 'From the moment an RcSlice is turned into an iterator over 2^m parts, its next and next_back return in order the parts that repeated halving gives, each exactly once and from both ends, whatever is done meanwhile to other handles, other iterators or the parts already yielded; len and as_slice say what is left; clones are independent and yield what the original would; each part is a handle of its own.', 'every history before and during the walk, every walk, every m, every slice', 'the walk is interleaved with unboundedly many other calls on the shared structure.', [f'{RS}: RcSlice::split_into_parts, RcSliceParts::next, next_back, clone, as_slice', f'{BP}: BinaryPartsIter'])
p('C48','An iterator over shared parts owns exactly what it has not yielded', 'An item is alive exactly as long as a handle or an iterator that has not yielded it yet shows it; while an iterator still has to yield an item, get_mut and into_mut of slices showing the item are refused, and items under a granted mutable access are shown by no iterator, nor ever will be; dropping an iterator drops exactly the items nothing else shows; when all handles and iterators are gone everything has been released.', 'every history of calls on handles and iterators', 'leaks and early drops depend on the order in which parts, clones of the iterator and other handles go away.', [f'{RS}: RcSliceParts, RcSlice::get_mut, into_mut', f'{BP}'])
p('C49','A WeakSlice of the Arc version can be upgraded exactly while its slice is alive', 'WeakSlice::upgrade returns an ArcSlice to the slice it was made from whenever an ArcSlice to that slice, or to one it was cut from, is held from the beginning to the end of the call, whatever other threads do meanwhile. Once it has failed, no ArcSlice to that slice or to one it was cut from exists or ever will, and upgrade fails for all WeakSlices to that slice for good.', 'every number of threads, every history, every interleaving during the call', 'the strong count is read and increased while other threads clone, subslice and drop; tests cannot try all interleavings.', [f'{AS}: WeakSlice::upgrade, ArcSlice::from_data, ArcSliceData::clone_child'])
p('C50','Using ArcSlices from many threads is free of data races', 'Whenever two accesses to the same item are made by calls or through handles of the Arc types, and one of them overwrites, moves, drops or frees the item, one of the two happens before the other in the sense of the Rust memory model: the knowledge is passed on by the handles themselves and by the acquiring and releasing accesses to the atomic counters and pointers.', 'every number of threads, every history, every interleaving, every pair of accesses', 'data races need particular interleavings, and are invisible on most machines even when they happen. (False of get_mut: see the negations.)', [f'{AS}: ArcSlice::get_mut, into_mut, DataGuard::guard, Drop for ArcSliceData', f'{AM}', f'{GA}'])
p('C51','What ArcSlices share among threads is initialized before it is used and used before it is destroyed', 'Handles to parts of the same array share data allocated by the library itself: a node for every subslice anyone has asked for, guards, and boxed weak references to guards, made by whichever call needs them first. In every execution such an object is made exactly once, that happens before (in the sense of the Rust memory model) every other access to it, all accesses to its contents happen before the contents are destroyed, it is destroyed at most once, and afterwards nobody accesses its contents. So calls on handles, dropping them, and reading items through them have no data races on the bookkeeping.', 'every number of threads, every history, every interleaving, every pair of accesses, all orderings std may use for reading counts and for upgrade', 'a pointer that is published too early, or memory freed too early, shows up in few interleavings, and on some machines never', [f'{AS}: ArcSliceData::clone_left, clone_right, DataGuard::guard, Drop for ArcSliceData', f'{AM}', f'{GA}'])
p('C52','RcSlice survives destructors that panic', 'If the destructor of an item panics, whether the panic is caught inside another destructor or by the caller, the library stays memory safe in everything done afterwards: nothing is dropped twice or used after it was dropped or freed, and all items covered by handles stay as they are. The rest of the range being dropped is still dropped and the memory of the array is still returned; at most items that no handle covers any more are not dropped.', 'every history in which user code runs at every item drop, makes any calls and panics, at every nesting depth', 'a panic has to be tried at every item drop of every history, and its consequences in every continuation.', [f'{RS}: impl Drop for RcSliceData', f'{SI}: Drop impls', f'{SA}'])
p('C53','ArcSlice survives destructors that panic', 'If the destructor of an item panics, whether during a drop or during WeakSlice::upgrade, the library stays memory safe in everything that other threads do at the time and that anyone does afterwards: nothing is dropped twice or used after it was dropped or freed, all items covered by handles stay as they are, exclusive access stays exclusive, and no thread waits forever. The rest of the slice being dropped is still dropped and all memory is still released; at most items that no handle covers any more are not dropped.', 'every number of threads, every interleaving of their calls, and every choice of item destructors that panic', 'a panic has to be tried at every item drop of every schedule, and its consequences in every continuation by every thread.', [f'{AS}: impl Drop for ArcSliceData, DataGuard::guard, ArcSlice::from_data', f'{SI}: Drop impls', f'{SA}'])
p('C54','Item destructors run in drops and in upgrade only', 'The destructor of an item of an ArcSlice is run by a drop of a handle or by WeakSlice::upgrade, which can be left with the last reference to a slice whose handles were dropped by other threads meanwhile. No other call runs item destructors: clone, clone_left, clone_right, downgrade, get_mut, into_mut, splitting and iterating do not, whatever other threads do. So these calls neither run nor panic because of foreign code.', 'every number of threads and every interleaving of their calls', 'clone_left and clone_right also obtain temporary references to larger slices; that they are never the last ones has to hold at every step of every schedule.', [f'{AS}: DataGuard::guard, ArcSlice::clone_left, ArcSlice::clone_right, WeakSlice::upgrade, impl Drop for ArcSliceData'])
p('C55','The calls on ArcSlice return what they promise under any interference', 'What a call on an ArcSlice, ArcSliceMut or WeakSlice returns depends on the handle it was made on only, and not on what other threads do before it returns: new returns a slice of exactly the given items; clone returns a slice of the same range; clone_left and clone_right return the first and the second half of the range; get_mut and into_mut, when they succeed, give the same range, and into_mut gives the slice back when it refuses; into_immut gives the same range; split_off on an ArcSliceMut gives the two halves; downgrade gives a weak reference to this slice, and upgrade, when it succeeds, the slice that was downgraded. The range of a handle stays the same until a call takes the handle.', 'every number of threads, every interleaving of their calls, every slice and every choice of item destructors that panic', 'two threads that split the same slice at once share subslices, one of them using what the other one has allocated; that both get the right half has to be checked at every point where they can interfere.', [f'{AS}: ArcSlice::new, ArcSlice::clone_left, ArcSlice::clone_right, ArcSlice::get_mut, ArcSlice::into_mut, ArcSlice::downgrade, WeakSlice::upgrade, impl Clone for ArcSlice', f'{AM}: ArcSliceMut::split_off_left, ArcSliceMut::split_off_right, ArcSliceMut::into_immut'])
p('C56','Dropping an ArcSlice drops only items that it showed', 'When a handle (ArcSlice, ArcSliceMut, its iterator or WeakSlice) is dropped, the items dropped by this are items the handle showed, whatever other threads do in the meantime. If a destructor panics during the drop, the items that leak because of this are also ones the handle showed. If all items the handle showed are shown by other handles at some time, the drop runs no destructor and cannot panic at that time.', 'every number of threads, every interleaving of their calls, every set of slices, subslices and weak references, and every choice of item destructors that panic', 'a drop may free subslices that were cached by other threads and enlarge what it owns while it runs, depending on how the reference counts are interleaved.', [f'{AS}: impl Drop for ArcSliceData, ArcSlice', f'{AM}: ArcSliceMut', f'{SI}: impl Drop for SliceItems'])
p('C57','split_off and ArcSliceParts give the specified parts in spite of other threads', 'split_off_left and split_off_right on an ArcSlice return one half and leave the other half in place, and every call of next or next_back on an ArcSliceParts (or, in builds without debug assertions, on a clone of it) returns the next part at that end of those that the earlier calls have left, or None if there are none left, whatever other threads do with other handles to the same items before, during and after; none of these calls panics, even if destructors panic in other threads, and none of them gets stuck: from every situation it can return. len is the number of parts left, and as_slice exactly their items.', 'every number of threads and every interleaving with their calls, every slice and number of parts, every sequence of next, next_back and clone, and every choice of item destructors that panic elsewhere', 'each of these methods makes several calls of clone_left, clone_right and drop, between which other threads may create, upgrade or drop the subslices involved.', [f'{AS}: ArcSlice::split_off_left/split_off_right/split_into_parts, ArcSliceParts', f'{BP}: BinaryPartsIter'])
p('C58','after any concurrent use, the Arc types are back in a state of the single-threaded specification', 'However several threads have used ArcSlice, ArcSliceMut and WeakSlice at the same time: when all their calls have returned, there is a state of the specification of single-threaded use that describes the handles, items and memory there are (each slice shows the items the specification says; handles to one subslice are handles to one member of a family), and every sequence of calls that one thread makes from then on has the results, and the effects on items and memory, of the specification. In particular nothing of the interleaving lingers on: into_mut of a non-empty slice then succeeds if all other ArcSlices are non-empty and share no item with it, and get_mut, too, if there are no WeakSlices.', 'every number of threads and every interleaving of their calls that comes to rest, and every sequence of calls after it', 'a lost update to a count or a stale link to a subslice left by a rare interleaving shows only in the results of much later calls; a test sees the interleavings it happens to get.', [f'{AS}: ArcSlice, ArcSliceMut, WeakSlice', f'{AS}: ArcSlice::get_mut/into_mut'])
p('C59','what a thread reads through its handles is unaffected by what other threads do', 'Whatever other threads do: every ArcSlice and ArcSliceMut reads items that are there; it reads the same items for as long as its owner neither gives it away nor writes through it; a write through an ArcSliceMut, or through the result of get_mut, changes one item of that handle and nothing any other handle reads. A call on a handle that reads xs returns handles that read what the same call gives in a single-threaded program: clone reads xs, clone_left and clone_right the halves of xs, get_mut, into_mut and into_immut xs (also if refused), split_off_left and split_off_right one half and keep the other, next and next_back the first and last item of xs and keep the rest, split_off_to and split_off_from of iterators the first n items and the rest. A new slice reads the items it was made from. upgrade of a WeakSlice, if it succeeds, reads the items the slice had when upgrade was called.', 'every number of other threads, every interleaving of their calls, writes and panics with the call, and every state of the slice; no upgrade overlapping with into_mut, or with get_mut and the use of its result', 'a test checks the contents of the slices in the interleavings it happens to get; a stray write or an early reuse of memory shows in rare ones only.', [f'{AS}: Deref for ArcSlice', f'{AM}: Deref for ArcSliceMut', f'{AS}: ArcSlice::clone_left/get_mut/into_mut, WeakSlice::upgrade', f'{AM}: ArcSliceMut::split_off_left/into_immut, ArcSliceMutIter'])
p('C60','ArcSlice does not depend on loads finding the latest value, except for strong_count', 'Rust lets a load of an atomic variable find a value that has been overwritten meanwhile. Suppose that every load of a child pointer, of the pointer to a guard and of a weak count finds any value the variable ever had, and that strong_count, in get_mut and into_mut, finds any former value that makes the call refuse. Then ArcSlice keeps its promises: no freed memory is accessed, all items a handle covers are there, an item is dropped at most once and only when no handle covers it, handles keep their items, whoever has exclusive access to an item is the only one to see it, all is released in the end, and no thread waits forever.', 'every number of threads, every interleaving, every choice of panicking destructors, and every choice of former values found by loads; no upgrade overlapping with into_mut, or with get_mut and the use of its result', 'the machines tests are run on produce few of the values the memory model allows, and tests cannot choose them.', [f'{AS}: ArcSlice::clone_child, DataGuard::guard, ArcSlice::get_mut, into_mut', f'{GA}'])
p('C61','exclusive access does not depend on loads finding the latest value', 'In every execution that the memory model of Rust allows, whoever gets exclusive access to an item by get_mut or into_mut is the only one to see it: also if loads of atomic variables find values that have been overwritten meanwhile, as far as the loading thread does not know of the overwriting.', 'every number of threads, every history, every interleaving, every value that every load may find', 'the executions in question do not occur on common machines, and no test can ask for them. (False: see the negations.)', [f'{AS}: ArcSlice::get_mut, into_mut'])
p('C62','a thread that keeps to its own handles need not know of the others', 'Whatever a thread does with handles of its own (new, clone, halves, get_mut, into_mut, into_immut, split_off, iterators from both ends and their splits, downgrade, upgrade, drop, reading and writing items, in any order and depending on results in any way): among other threads it gets what it could have got if it were the only thread there is and each handle were just a list of items. In particular, iterating over an ArcSliceMut from both ends yields its items from both ends; cloning an ArcSliceMut gives a second one with the same items; replacing items through &mut replaces those and no others; split_into_parts of an ArcSliceMut yields from both ends the 2^i parts obtained by halving i times, and panics, dropping the slice, if the number of parts is not a power of two.', 'every program of a thread, every number of other threads and whatever they do short of taking or writing through its handles, every interleaving, every panicking destructor, all items; no upgrade overlapping with exclusive access (discipline of C38/C39)', 'the programs, the interleavings and the programs of the other threads are unbounded', [f'{AM}: ArcSliceMut::split_into_parts, Clone for ArcSliceMut, ArcSliceMutIter::next, next_back, ArcSliceMutParts::next, next_back', f'{AS}: ArcSlice'])
p('C63','memory blocks are returned when nobody needs them any more, and not before', 'Clones, halves, weak handles, drops and conversions of an ArcSlice on any number of threads never access the memory block of slice data or of the owner of the items after it was returned, and never return one twice. All that a handle needs is there as long as the handle is. When no call is in flight, a block is there exactly if its value is alive, if a live half of it is, or if a WeakSlice refers to it; if only WeakSlices are left, exactly what they refer to; if no handle is left, nothing.', 'every program, every number of threads, every interleaving including when given up weak references are released, every panicking destructor; upgrade does not overlap with into_mut on something larger (discipline of C38)', 'weak counts are not observable from safe code and the interleavings of drops are unbounded', [f'{AS}: ArcSliceData, ArcSlice, WeakSlice, ArcSliceData::child, ArcSlice::downgrade, ArcSlice::into_mut', f'{AM}: ArcSliceMut'])
p('C64','whoever returns a memory block knows of all accesses to it', 'When the memory block of slice data, or of the owner of the items, is given back to the allocator, every access anyone ever made to it (to its counters, to its value, making or dropping the value, by reading items through a handle) happened before that in the sense of the memory model, not just earlier in some interleaving; there are none afterwards; no block is given back twice; and it is given back as soon as the last weak reference has been dropped.', 'every program, every number of threads, every interleaving including when given up weak references are released, whatever the threads know of each other beyond what the calls pass on; upgrade does not overlap with into_mut on something larger (discipline of C38)', 'a missing happens-before edge only shows on machines that reorder, and then rarely; the interleavings are unbounded', [f'{AS}: ArcSliceData, ArcSlice, WeakSlice, ArcSliceData::child, ArcSlice::downgrade, ArcSlice::into_mut', f'{AM}: ArcSliceMut'])
p('C65','exclusive access to a slice of one\'s own is granted', 'If a thread has the only handle to a slice, and nobody else has a handle to a slice it was cut from or that was cut from it, nor a WeakSlice of such that could be upgraded, and no call on a slice of the same array is in flight, then get_mut and into_mut on it are granted whenever they are called later, whatever other threads do until then and meanwhile with other slices, also with slices of other items of the same array.', 'every program, every number of threads, every interleaving before and during the call; destructors may panic; upgrade does not overlap with into_mut on something larger (discipline of C38)', 'the calls of other threads on the rest of the array touch the same shared tree, counters and guards at any moment of the call; tests see few of the interleavings', [f'{AS}: ArcSlice::get_mut, ArcSlice::into_mut, ArcSliceData::guard, ArcSlice::clone_left, WeakSlice::upgrade'])
p('C66','Which calls on ArcSlices others can hold up', 'clone, get_mut, into_mut, into_immut, drop, making a slice, and splitting, iterating and cutting an ArcSliceMut return after a bounded number of turns of their own, whatever other threads do in between, even if those go on making calls for ever; the bound is a constant for all but into_mut and drop, and for these grows linearly with the size of the slice and the number of times the whole was halved to get it. clone_left, clone_right, downgrade and upgrade have no such bound: the first three can be held up for ever by threads that call get_mut on a clone of the handle, and upgrade by threads that upgrade a clone of the WeakSlice and drop the result.', 'every number of threads, every history before the call, every schedule and every (endless) sequence of calls of others meanwhile; destructors may panic', 'starvation needs an endless schedule; a bound on the turns has to hold for every schedule', [f'{AS}: ArcSlice::get_mut, into_mut, clone_left, clone_right, downgrade, WeakSlice::upgrade, DataGuard::guard, impl Drop for ArcSliceData', f'{GA}'])
p('C67','Items that are not Send stay on their thread', 'ArcSlice<T>, WeakSlice<T> and their iterators are Send, and Sync, exactly if T is both; ArcSliceMut<T> and its iterators are Send exactly if T is, and Sync exactly if T is; the RcSlice types never are. A program that moves and shares handles between threads only as this permits, with items that are not Send, keeps all handles that show items of an array on the thread that made the array; only that thread gets mutable access to an item, takes items out by value, runs their destructors, or loses them in a panic.', 'every T, every number of threads, every program that respects Send and Sync, every schedule; destructors may panic', 'the compiler accepts the unsafe impls unchecked; a wrong bound shows only in programs that make use of it', [f'{AS}: unsafe impl Send for ArcSliceData, unsafe impl Sync for ArcSliceData', f'{SI}: unsafe impl Send, unsafe impl Sync', f'{SA}: unsafe impl Send, unsafe impl Sync', f'{AM}', f'{GA}'])
p('C68','Items that are not Sync are accessible to one thread at a time', 'A program that moves and shares handles, references to handles, and references to items between threads only as Send and Sync permit, with items that are not Sync, never enables two threads to read or change the same item at the same time.', 'every T that is not Sync, every number of threads, every program that respects Send and Sync, every schedule; destructors may panic', 'the compiler accepts the unsafe impls unchecked; a wrong bound shows only in programs that make use of it. (False of the code: see C68_fails.)', [f'{AS}: unsafe impl Send for ArcSliceData, unsafe impl Sync for ArcSliceData, ArcSlice::get_mut, WeakSlice::upgrade', f'{SI}: unsafe impl Sync', f'{AM}'])
p('C69','A slice needs memory for a bounded number of subslices', 'However often a slice of n items and its subslices are halved, cloned, dropped, downgraded, upgraded and halved again, on however many threads: at most 3 n - 1 records of subslices (one if n = 0) are ever put to use for it, and never two for what is got by the same halvings, even counting those whose contents have been dropped; and at any time at most as many guards exist.', 'every number of threads, every history, every schedule; destructors may panic', 'growth of memory that depends on how calls of different threads are interleaved, or on long histories, is not seen in tests of bounded length', [f'{AS}: ArcSliceData::clone_child, clone_left, clone_right, DataGuard::guard'])
p('C70','The stack needed grows with the logarithm of the size of a slice', 'If no array has more than 2^m items, no call on a handle ever has more than m + 2 invocations of one of the recursive functions active at the same time: the search for guards, the destructor of subslices, the destructor of guards, and the traversal that into_mut makes. So for lengths of 64 bits 66 are enough, and no history or interleaving makes a call overflow the stack.', 'every number of threads, every history, every schedule, every length; destructors may panic', 'a stack overflow would need particular long histories or huge slices', [f'{AS}: DataGuard::guard, impl Drop for ArcSliceData, ArcSliceData::forget_items, DataGuard'])
p('C71','The memory an RcSlice needs is bounded by its size', 'For a slice of n items (n > 0) and all its subslices, at most 3n - 1 records of slice data are ever allocated, however often subslices are cloned, dropped and cloned again: one for each way to halve that is asked for, and never a second one. At any time there is memory for at most as many get_mut guards, and at most twice as many into_mut guards, those counted that are dropped but still pointed to by Weaks.', 'every history of calls, re-entrant ones and panicking destructors included; every length', 'a leak of guards or repeated allocation of children shows only in long histories', [f'{RS}: RcSliceData::clone_child, IntoMutGuard::clone_left, clone_right, GetMutGuard::clone_left, clone_right, ensure_into_mut_guard'])
p('C72','The stack an RcSlice needs grows with the logarithm of its size', 'If a slice was made of at most 2^m items, then no drop of slice data or guards of its subslices is nested more than m + 3 deep, and neither is the traversal that into_mut makes nor the search for guards that upgrade makes.', 'every history of calls, re-entrant ones and panicking destructors included; every length', 'a stack overflow would need particular long histories or huge slices', [f'{RS}: impl Drop for RcSliceData, RcSliceData::forget_items, IntoMutGuard, GetMutGuard, ensure_into_mut_guard'])
p('C73','Only dropping handles runs item destructors in the Rc version', 'In rc, the destructor of an item runs within a call only if the call is the drop of an RcSlice, an RcSliceMut or one of its iterators, or a split_into_parts that panics. No clone, clone_left, clone_right, split_off_left, split_off_right, get_mut, into_mut, into_immut, downgrade, upgrade, next, split_off_from, split_off_to, next part, nor the drop of a WeakSlice drops an item or can panic because of one.', 'every history of calls, calls made inside destructors and after panicking destructors included; every point inside the call', 'split_off drops the slice it replaces, into_mut, next and the drop of a WeakSlice drop references to shared records; whether one of them reaches items depends on all that was done before', [f'{RS}: RcSlice::split_off_left, RcSlice::split_off_right, RcSlice::into_mut, impl Drop for RcSliceData, WeakSlice', 'src/rc/rc_slice_mut.rs: RcSliceMutIter::next, RcSliceMut::split_into_parts'])
p('C74','A handle of the Rc version keeps only logarithmically many small blocks', 'Between calls, each RcSlice and each WeakSlice accounts for at most m + 2 live guards of each kind, where 2^m bounds the number of items of a slice, and each WeakSlice keeps the memory of at most one dropped slice record. When only WeakSlices are left, no item, no array, no slice record and no into_mut guard is alive, and the blocks of memory kept for guards are at most 4 (m + 2) per WeakSlice.', 'every history of calls, re-entrant ones and panicking destructors included; every length', 'what is kept depends on the whole history: guards refer to their parents, parents to children by Weak, dropped records stay as long as a Weak does', [f'{RS}: IntoMutGuard, GetMutGuard, WeakSlice, RcSlice::downgrade, RcSlice::clone_left, RcSlice::clone_right'])
p('C75','Reference counts of the Rc version stay small',
 'The number of references to anything that RcSlices share internally never exceeds the number of handles that exist and of drops that are under way by more than a small constant; the references to an array are in addition at most one per subslice in memory. So no reference count overflows, and no call aborts because of it, unless handles are leaked (mem::forget) about usize::MAX times.',
 'every history, also within destructors of items and after they panicked',
 'no test can make 2^64 handles; a count that creeps up (a reference forgotten in a rarely taken path) shows only in the count',
 [RS+':RcSliceData,IntoMutGuard,GetMutGuard,RcSlice::clone,WeakSlice::clone,ensure_into_mut_guard',SA+':SliceAlloc'])

p('C76','Reference counts of the Arc version stay small',
 'At any moment, whatever the threads do, the number of Arcs or Weaks of anything that ArcSlices share internally exceeds the number of handles that exist, of calls under way and of drops still to do by at most 3; the references to an array are in addition at most one per subslice in memory. So no reference count overflows, and no call aborts because of it, unless handles are leaked (mem::forget) about usize::MAX times.',
 'every number of threads, every history, every schedule, also in the middle of calls; destructors may panic',
 'no test can make 2^64 handles; a reference kept by the loser of a race shows only in the count, and only for some interleavings',
 [AS+':ArcSliceData,DataGuard,ArcSlice::clone,WeakSlice::clone,clone_child,guard,forget_items',SA+':SliceAlloc'])

p('C77','How much memory the Arc version leaks',
  'ArcSlice leaks small blocks (C40). The calls that leak are those that make an ArcSlice other than a copy of one: new, into_immut, clone_left, clone_right (also within split_off_left, split_off_right) and upgrade; no other call leaks, nor do destructors, panics or writes. What is leaked so far is one block for each subslice that has been made and one for each time a subslice has become used by handles again. There is no bound: for every n there is a program with one thread, one slice of two items and at most two handles at a time that, when it has dropped everything, has leaked n + 3 blocks.',
  'every program, thread interleaving and point in time; for the last sentence every n',
  'a leak does not show in results; a test with a leak checker sees the number for its own program only',
  [AS+':ArcSliceData::with_data_and_parent,ArcSliceData::drop,DataGuard::guard,clone_child'])

p('C78','What handles of the Arc version keep in memory',
 'Besides what is leaked (C77): each ArcSlice keeps at most m + 2 guards alive, where 2^m bounds the number of items of an array; at any time the number of guards alive is at most m + 2 for each ArcSlice, each call under way and each drop still to do. WeakSlices keep no guards alive. Between calls, the blocks of memory of slices that have been dropped are at most one for each ArcSlice or WeakSlice. When only WeakSlices are left, there is no item, no array, no guard alive, and at most one such block for each.',
 'every number of threads, every history, every schedule; destructors may panic; every length',
 'what is kept depends on the whole history: guards refer to their parents, dropped slices stay in memory as long as a part or a WeakSlice refers to them; none of this shows in results',
 [AS+':ArcSliceData,DataGuard,WeakSlice,ArcSlice::downgrade,clone_child,guard'])

p('C79','Calls on ArcSlices return soon if others pause', 'If all other threads pause, at any moment and wherever they are in their calls, a call that is then made returns after a bounded number of steps, unless it is clone_left, clone_right or downgrade and one of the others is paused inside a get_mut or into_mut on the same slice and has closed the gate (then it waits, for as long as the others pause). downgrade takes two steps; clone_left, clone_right and upgrade take a number of steps linear in the number of times the whole was halved to get the slice, hence logarithmic in the number of items: with k halvings, at most 6 k + 15 for the first two and 6 k + 6 for upgrade. The others are as in C66. A call that is in the middle when the others pause returns too, or comes to wait for a gate one of them has closed.', 'every number of threads, every history, every schedule up to the moment of the call, every length; destructors may have panicked before', 'that a retry loop ends if left alone has to hold for every state others may have left behind', [f'{AS}: ArcSlice::clone_left, clone_right, downgrade, WeakSlice::upgrade, ArcSliceData::clone_child, DataGuard::guard', f'{GA}'])
p('C80','Items are dropped from front to back', 'Dropping an RcSliceMut, one of its iterators, or the last handle on an RcSlice of which no half was ever taken drops the items in order, as Vec does: while the destructor of an item runs, all items before it have been dropped, and all items after it are alive. The same holds of a split_into_parts that panics, and if a destructor panics meanwhile: the rest is dropped nevertheless, in order. It also holds of an ArcSliceMut or an iterator over one, whatever other threads do meanwhile and even if destructors panic. (It does not hold of an RcSlice of which the right half was taken at some time: that half is dropped first.)', 'every history, every length, every moment until the drop returns; destructors of items may make any calls meanwhile; for the Arc version every interleaving and every panic', 'the order must be kept whatever was split off before and whatever the destructors do in between', ['src/internal/slice_model/slice_items.rs: SliceItems::drop, SliceItemsIter::drop, SliceItemsParts::drop', 'src/rc/rc_slice.rs: RcSliceData::drop', 'src/arc/arc_slice_mut.rs: ArcSliceMut'])
out=os.path.join(os.path.dirname(os.path.abspath(__file__)),'..','properties.jsonl')
with open(out,'w') as f:
    for x in P: f.write(json.dumps(x)+'\n')
print(len(P))
