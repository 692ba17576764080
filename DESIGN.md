# A formal model of rc_slice in Lean 4

`/repo` (TimHambourger/rc_slice) is a Rust crate offering reference counted
slices that can be halved again and again, with mutability tracked per
subslice. This directory contains a model of it in Lean 4 and proofs of the
properties listed in `properties.jsonl` about that model. `MANIFEST.json` says
which theorems prove which property.

## The model

**Layer A, arithmetic and iterators** (`lean/Verif/Model`). `usize` values are
natural numbers; every addition, subtraction and pointer offset the code
performs is a checked operation that yields a `Fault` when the Rust code would
overflow, underflow, panic or leave the slice. Item addresses are
`base + k * stride`, where `(base, stride)` is `(ptr, size_of T)`, or `(0, 1)`
for zero-sized types, the two encodings of `PtrOrIdx`. Modelled: `SliceItems`,
`SliceItemsIter`, `SliceItemsParts`, `BinaryPartsIter`, the sub-range functions of
`RcSliceData` and `ArcSliceData`.

**Layer B, the Rc heap** (`lean/Verif/Rc`). An explicit heap with an arena of
reference counted objects (`SliceAlloc`, `RcSliceData`, `IntoMutGuard`,
`GetMutGuard`), each cell carrying its strong count, its weak count and its
contents, plus item buffers whose slots are live, dropped or moved out. Every
API call is a function on this heap in `Except UB`; any access to a dead cell or
slot, or count underflow, is an `UB` value. Destructors are a worklist of small
drop steps in Rust's drop order, so that user code may run between any two item
drops (re-entrancy). The iterators over unique slices are the functions of layer A,
run on the addresses of the buffer. `Rc/SharedParts` adds the iterators over the parts of
shared slices: layer A's `BinaryPartsIter` whose elements are handles of this heap. Cells carry a ghost label (family, path) never
read by the code, used by the invariant only.

**Layer C, Arc under interleaving** (`lean/Verif/Arc`). Any number of calls are in
flight; one step of the model is one atomic access of one call. Modelled: `Gate`,
`ArcSliceData`, `DataGuard::guard` with its retry loop, `clone`, `clone_left/right`,
`get_mut` (the borrow lasts until a separate event ends it), `into_mut` with
`forget_items`, `into_immut`, `downgrade`, `upgrade`, the drops of all handle types,
`ArcSliceMut` splitting, `ArcSliceMutIter::next/next_back` and
`ArcSliceMutIter::split_off_from/to`. A run may start any
call that Rust's borrow checker admits at any time.

**Specifications** (`lean/Verif/Spec`, `lean/Verif/Arc/Spec.lean`). `Spec/Parts` and
`Spec/Layout` define the ranges that halving leads to. `Spec/World` is a machine that
knows nothing about nodes, guards or counts: its handles are (family, path) pairs,
items that no handle covers are dropped after each call. The main theorem of layer B
is a refinement: every history gives the same observations in both.
`Arc/Spec` says which items a handle shows, which items are there, and which
disciplines of use the theorems ask for.

## Property by property

| id | what is modelled, how it is proved |
|----|---|
| C01 | Layer A `SliceItems.splitOffLeft/Right`, Layer B sub-ranges; direct arithmetic |
| C02 | Layer A `new` with the halving loop; induction on the loop, equivalence with "exists m, k = 2^m" |
| C03 | Layer A `BinaryPartsIter` over an abstract splitting function; invariant "deque = dyadic decomposition of [front, k-back)", induction over walks |
| C04 | Layer A `SliceItemsParts` with its mask loops; closed form of the bit walk, induction over walks |
| C05 | corollary of the specification used by C03 and C04 |
| C06 | arithmetic induction on m for the parts of the specification, then C03 and C04: the iterators yield these (`C06_shared`, `C06_unique`) |
| C07, C08 | invariants of C03/C04/C11 |
| C09 | length of the dyadic decomposition, for all intermediate states |
| C10 | corollary of the C03 invariant |
| C11, C12 | Layer A `SliceItemsIter`, induction over walks with splits; `C11_conserves` is about what is handed out and what draining the iterators yields |
| C13 | checked operations of Layer A never fault |
| C14-C29, C32-C34, C43 | Layer B: an invariant (a ledger that equates every count with the number of references found in the heap, the handles and the pending drops; shape of the trees of nodes and guards) gives the refinement; the properties are corollaries. C34 is false of one call, see below |
| C30 | functions of the visible list only |
| C31 | Layer B, worklist semantics with arbitrary API calls between item drops |
| C35 | Layer C: ledger of latches, for all histories |
| C36-C39 | Layer C: ledgers for data and guards, "every held subslice is covered by a guard", phases of `get_mut`/`into_mut`; negations by concrete executions |
| C40 | Layer C: ledger with nothing left; negation by a concrete execution |
| C45 | Layer C: an invariant saying how far a call that is bound to be refused can get; the other handle keeps a count above 1 |
| C41, C44 | Layer C: a measure that decreases unless another call has installed a guard or a gate is closed by a call that is not waiting |
| C42 | simulation of layer B by layer C with one call at a time (`Arc/Seq`), by way of `Spec/World`; `Spec/ArcWorld` says where `get_mut` differs when there are `WeakSlice`s |
| C46-C48 | Layer B with `RcSliceParts`: layer A's `BinaryPartsIter` run on handles of the heap; each call on an iterator is shown to be a sequence of calls on handles, so the theorems of layer B carry over; an invariant places the handles inside each iterator on the dyadic decomposition of C03 |
| C49 | Layer C: an invariant of calls of `upgrade`; dead data stays dead, and the data of a subslice lives as long as that of the slice it was cut from |
| C50 | Layer C with happens-before (`Arc/Race`): who knows of an access is an invariant along the ownership of items; negations by concrete executions |
| C51 | The same, for the objects the library allocates: whoever can get hold of a pointer knows that its target was made, because pointers only come from handles, fields that never change, and atomic pointers; whoever drops the last reference knows of all accesses |
| C52 | Layer B with unwinding (`Rc/Unwind`): the drops pending when a destructor panics are left, continued or turned into a loss of items; the invariant of layer B and the refinement, to a specification in which items that no handle covers may be lost, carry over |
| C53 | Layer C with unwinding (`Arc/Unwind`): a step in which the destructor that a call is running panics; the call then drops what its frames own, and items are lost as in C52. All invariants of layer C are shown to survive this step; the measure of C44 decreases |
| C54 | Layer C with unwinding: an invariant on where in the tree the references held by a call that is neither a drop nor `upgrade` point to: to the slice it was called on, which has a handle, or to memory without items |
| C55 | Layer C with unwinding: a contract for each operation (`Arc/Contract`), which mentions the state in which the call starts, the result and the ranges of the handles it returns only; an invariant saying where each program point of each call leads to, shown to be stable under the steps of all other calls |
| C56 | Layer C with unwinding: an invariant of the call that drops, saying that all it has yet to drop lies in the range the handle had (`Arc/Proofs/DropIn`) |
| C57 | `Arc/Threads`: programs of one thread that make several calls of layer C, run among other threads; layer A's `BinaryPartsIter` is run in the monad of these programs. Each call is settled by C55; between calls, what the thread's own handles see is invariant under everything that others do; the iterator's state is that of C03 (`Arc/Proofs/Threads*`) |
| C58 | `Describes` (`Props/ArcRest`) relates a configuration of layer C to a state of `Spec/World`. The simulation of C42 is proved for every rule that lets a lone thread do anything (`Solo`, `Arc/Proofs/SeqRel`), not only for runs of one thread; its relation is established at every reachable quiet configuration from the invariants of layer C and a new one on ranges (`Conf.RI`, `Arc/Proofs/Rest`). The two corollaries read `into_mut` and `get_mut` off the specification |
| C59 | `Reads`, `Gives` (`Arc/Values`): the specification mentions items only. What is to be proved beyond C55 is that nobody writes to what a call in flight has taken. A call holds what it is going to return (`lds_holds`), which excludes writers (`hold_excl`, from the ledger of layer C and the phases of C38); so others' writes miss it, and C55 applies with "no writes" (`Apart.sealed'`). `upgrade` holds nothing at first; the discipline excludes writers then (`up_excl`) |
| C60 | `Arc/Stale`: layer C with unwinding, and one more kind of step: a load finds the value the variable had in any earlier state. Each invariant of layer C survives this step, since what is found points to memory that lives as long as the caller's own references (`Found`, `GEvo`), or makes the call refuse |
| C61 | `Arc/Stale` on top of the happens-before of `Arc/Race`: a load may miss the steps that did not happen before it. The partial theorem is by erasure to C60; negations by concrete executions |
| C62 | `Arc/Local`: programs of one thread (`Body`), run among others (`Acts`) and in a specification without memory or other threads (`Sole`); simulation by induction over the run, each call settled by C55 and C59. `Arc/Bodies` writes iterators, `ArcSliceMut::clone` and `ArcSliceMutParts` as such programs; their results are then computed in `Sole` |
| C63 | `Arc/Weak`: the model of C53 with the weak counters of `ArcSliceData` and `SliceAlloc`; every step says which blocks it accesses and which `Weak`s it makes and gives up. Invariant: the counter is the number of `Weak`s in the hands of somebody, one for all `Arc`s of a live value, one per live child, one per `WeakSlice`, one per call that is making a child or dropping a `WeakSlice` |
| C64 | `Arc/Return`: the happens-before model of C50 and the weak counters of C63 together; a `Weak` that was given up is dropped later, by one who knows what was known then; the weak counter collects what they know. Invariant: every access to a block is known to someone who has a `Weak` of it (a live value, a live child, a `WeakSlice`, a call, one who is about to drop it), or is in the weak counter |
| C65 | Locality (`Arc/Proofs/Zone`): a call that holds only references from a set of labels closed under halves and live parents stays in it. With the set of all that is not related to the slice, nobody else ever gets hold of it, so the counts are 1 and the gates open (`Arc/Proofs/Private`). For calls in flight at the start: a call never leaves the family of the slice it is made on, and a new family is known to its maker only (`Arc/Proofs/Families`) |
| C66 | `Arc/Turns`: runs with the list of the calls that have had a turn. For each call, a number of turns it may still need, computed from what it holds (`wtC`), which its own steps decrease and no step of others increases (`Arc/Proofs/Turns`): what a call is dropping or taking is never made larger by others, because subslices are only installed by those who hold a reference. Starvation: two rounds of calls that lead back to a configuration like the one before, for any number of rounds (`Arc/Proofs/Starve`) |
| C67 | `Arc/SendSync`: whether each type is `Send` and `Sync` by the rules of the compiler from the fields of the structures and the `unsafe impl`s; programs on several threads, which may start calls on handles they own, or, by reference, on handles whose type is `Sync`; send handles whose type is `Send`; and send the reference that `get_mut` makes if `T` is `Send`. By induction: what has to do with one family of slices is on one thread (`Arc/Proofs/SendSync`, with the zones of `Arc/Proofs/Zone`), which is the one that made the array if `T` is not `Send` (`Arc/Proofs/HomeThread`) |
| C68 | the same, with C38 for the reference that `get_mut` makes |
| C69 | invariant of layer C: labels of records (dropped ones included) are unique, and are sequences of halvings none of which leaves the slice as it is; counting such sequences by induction on the length |
| C70 | the depth of such sequences; pending drops, waiting invocations of `guard` and of `forget_items`, and guards are nested along them |
| C71 | all slice data ever made is labelled by a sequence of halvings that change the slice, and no label is used twice: as long as a parent is there it refers to the child made first; guards with memory are found from the one live guard that refers to them |
| C72 | the depth of such sequences; references among live records go up the tree (guards) or down (slice data) |
| C73 | the drops a call has left to do, step by step (`Rc/Within.lean`); only guards, allocations and slice data that others still hold are among them |
| C74 | every live guard is that of a handle or of a slice its slice was cut from (reference counts and the shape of the heap); labels on such a path are determined by their lengths |
| C75 | the ledger of layer B (each count is the number of references there are) and its ghost labels, by which the references to a guard or to slice data from within the heap are few |
| C76 | the ledgers of layer C, at every step: handles, program points and pending drops hold at most one reference each to any one object; references from within the heap come from the parent, or from the two halves, which labels tell apart |
| C77 | layer C: an invariant (boxes = records + guards), checked for every step; program points tell which calls can make boxes; for the last sentence the steps of one round of `clone_left` and `drop` are executed symbolically, from any state with one handle, and the rest is by induction on the number of rounds |
| C78 | layer C with weak counts: a live guard is held by somebody or by the guard of a part, so it is above one that is held; on the way up there is one guard at most at each depth. A dropped slice is in memory for a `WeakSlice` or for a part, which then is held by a handle and by nothing else |
| C79 | layer C: induction on the depth of the slice `guard` is called for. Alone, the exchange of a box never fails, since guarding the parent changes boxes of larger slices only, and dropping the upgraded parent only decrements its count |
| C80 | layer B: a range being dropped is pending with its first items dropped; by induction over what happens until the drop returns, calls from destructors included, what is dropped stays dropped (refinement), and what is pending is alive (the ledger of owners). With panics: until the first one, a range that is being dropped is first in line or right behind the destructor of one of its items, so unwinding leaves it to be dropped. Layer C, for ArcSliceMut: the same about a call among others, panics included |

## Findings

Rc version:
* C34: `RcSliceMut::split_off_right` of a slice of one item leaves an empty rest that
  holds on to the allocation (`C34_fails`); all other ways to make empty handles
  behave as claimed.
* `C29_empty_blocks`: an empty subslice blocks `get_mut` and `into_mut` of the slices it was
  cut from, although they share no item.
* `C03_clone_debug_panics`: a cloned `BinaryPartsIter` violates the capacity
  `debug_assert`, because `VecDeque::clone` does not keep the capacity.
* C52: when the destructor of an item of a subslice panics, the items that the larger slice owns besides its
  two halves are not dropped (rc_slice.rs:213-217); this is a leak of items, not of the array, and is safe.
  Nothing else is lost (`C52_lost`); slices that have begun to be dropped are dropped to the end (`C52_outer_dropped`).

Arc version:
* C38 is false, already in one thread: `WeakSlice::upgrade` of a subslice succeeds while a
  `get_mut` of the whole slice is in use (`C38_fails_descendant`, `C38_fails_same`). Even a `WeakSlice` of the very same handle can be
  there: a `downgrade` that found the gate open before `get_mut` closed it may take its count
  after `get_mut` has read it (`C38_fails_late_downgrade`).
* In one thread, `get_mut` is the only call that differs from the Rc version: it does not
  count `WeakSlice`s to slices cut from the given one (`C42_weak_below_ignored`).
* C39 is false: `into_mut` races with `upgrade` (`C39_fails`), and a double drop follows
  (`C39_double_drop`).
* C40 is false: the boxed `Weak<DataGuard>` are never freed (`C40_fails`); one weak
  reference per guard ever installed is what remains, nothing else (`C40_partial`).
  C77 says how much this is; a program that repeatedly takes a half of a slice and drops it
  leaks a box each time (`C77_unbounded`).
* Everything else holds as long as no `WeakSlice` of a part of a slice is upgraded while `into_mut` is running on
  that slice (`Tame`), and exclusiveness of `get_mut` as long as moreover no `WeakSlice` of a slice or a part of it is upgraded
  while `get_mut` is running on it or its result is in use (`Strict`). Any other overlap is permitted: `upgrade` may overlap
  `into_mut` on the same slice, and both of them on a part or elsewhere. The two conditions have eight clauses; none of them can be dropped
  (`C38_C39_tight`, `C37_tight`).
* C53, C54: a panic in the destructor of an item of a subslice leaks items as in C52. `WeakSlice::upgrade` may run item
  destructors, and hence panic: while it holds a temporary reference to the parent of a slice, other threads may drop
  the rest of the parent.
* C50 is false: `get_mut` can be granted without the reads made through handles dropped by
  other threads having happened before. With the `std` of the time of the crate this is because an
  unsuccessful `Weak::upgrade` of a guard does not acquire (`C50_fails_guard`), with today's `std`
  also because `strong_count` does not (`C50_fails_count`). Nor does `upgrade` learn of what was written through
  `get_mut` (`C50_fails_upgrade`). All other conflicting accesses are ordered (`C50_partial`,
  `C50_noUpgrade_partial`); programs that do not call `get_mut` have no data races at all
  (`C50_noGetMut_partial`). Nor do those that do not upgrade, if both loads of counts acquire: these
  two loads are all that is wrong with `get_mut` there (`C50_acquire_partial`, `C50_acquire_noUpgrade_partial`). The library's own nodes, guards and boxes are published and destroyed properly (C51).

* `get_mut` and `into_mut` may be refused to a thread that has the only handle to a slice, when there is no handle to anything
  it was cut from either (C65, last example of `Props/ArcGranted`): `WeakSlice::upgrade` on the other half of a slice holds the
  whole for a moment (arc_slice.rs:286-320, the guard of the parent), also if the last handle to the whole is dropped
  meanwhile; the whole keeps this half in its cache. The documentation allows refusing, so this is no violation; C65 says when it cannot happen.
* Starvation (C66): `downgrade`, `clone_left` and `clone_right` wait in a loop for the gates that `get_mut` and `into_mut` close (gate.rs), without any
  queue. A thread that keeps calling `get_mut` on a clone of the handle, which is refused each time, can hold them up for ever (`C66_waiting_starves`).
  `upgrade` can be held up by others that upgrade clones of the `WeakSlice` and drop the result (`C66_upgrade_starves`). All other calls are bounded (`C66_bounded`).
* `Send` and `Sync` (C67, C68): the bounds of the `unsafe impl`s are right. That of `Send for ArcSliceData` on `T: Sync` is not needed: what is in an `Arc` has to be
  both. The hole of C38 makes it possible, for a `T` that is `Send` but not `Sync`, that two threads use the same item (`C68_fails`).
* C61 is false: `strong_count` (arc_slice.rs:372, 396) may find a 1 that is out of date. Thread A holds a half of a slice. Thread
  B takes the same half again, cuts a quarter from it and drops its half; all this does not happen before what A does next. A calls `into_mut` or `get_mut` on its half.
  `strong_count` finds the 1 from before, and all later checks pass, since by now B's half is gone. So A has exclusive access, B
  the quarter (`C61_fails_into_mut`, `C61_fails_get_mut`, `C61_fails_dropped`). No `WeakSlice` is involved. Loads that find any other old
  value are harmless (C60). On x86 this cannot occur, as there each change of a count is a full barrier.

## Trusted base

* Lean 4.33.0's kernel. Axioms: `propext`, `Classical.choice`, `Quot.sound` at most;
  `AXIOMS.md` lists them for every theorem named in the manifest. No axioms of our own.
* The faithfulness of the transcription, definition by definition; each one
  cites the file and lines it models and the simplifications made. `COVERAGE.md` lists, for every
  function of `/repo` outside of tests, the definitions that cite it.
* The specification modules named above and the statements of the theorems.
* Rust semantics assumed: drop order of fields, temporaries and unwinding;
  `Rc`, `Weak`, `Arc`, `Box`, `VecDeque` behave as documented; calls that the
  borrow checker and move semantics rule out are not made.

Not modelled:
* Weak memory orderings: layer C interleaves atomic accesses, and except in C60 and C61 (`Arc/Stale`) loads find the
  latest value. Happens-before is modelled on top of that (`Arc/Race`; C50, C51 and C61 only). Accesses to memory that
  only one thread can reach are merged with the atomic access that follows.
* Overflow of reference counts (the standard library aborts the process). C75 and C76 show that it takes about `usize::MAX` handles, leaked ones included.
* Item values are plain data: cloning an item copies it; destructors of items are
  arbitrary programs as far as calls on other handles go (C31); in the Rc version they may panic in C52 and C80 only, in the
  Arc version wherever a theorem is about `PReach` (C53, C54 and later ones); the destructor of an item that is overwritten through `deref_mut` is not run.
* The allocator: memory is allocated and freed, not reused; out of memory is not modelled.
* The weak counts of `ArcSliceData` outside C63 (`Arc/Weak`): they decide only when the memory of the node itself, not of items, is
  returned. C63 takes from the standard library that an `Arc` whose last drop panics gives up its implicit `Weak` all the same.
* `Debug` formatting beyond being that of the visible items (the alternate form `{:#?}` is not modelled).
* In layer C: `ArcSlice::split_off_*` and `ArcSliceParts` are programs made of modelled calls (`Arc/Threads`, C57), and so are
  `ArcSliceMut::clone` and `ArcSliceMutParts` (`Arc/Bodies`, C62), which splits its items by modelled calls; the arithmetic is
  that of layer A.
