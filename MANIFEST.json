{
 "claims": [
  {
   "property": "C01",
   "status": "proved",
   "theorems": [
    "Verif.C01_unique_halving",
    "Verif.C01_shared_halving"
   ],
   "note": "Every length and offset, zero-sized items included."
  },
  {
   "property": "C02",
   "status": "proved",
   "theorems": [
    "Verif.C02_shared",
    "Verif.C02_unique"
   ],
   "note": ""
  },
  {
   "property": "C03",
   "status": "proved",
   "theorems": [
    "Verif.C03_any_splitting",
    "Verif.C03_shared_walk",
    "Verif.C03_positions",
    "Verif.parts_digit",
    "Verif.C03_clone_release",
    "Verif.C03_clone_debug_panics"
   ],
   "note": "In debug builds a cloned iterator trips a debug_assert (VecDeque::clone does not keep the capacity): C03_clone_debug_panics. Without debug assertions clones behave like the original."
  },
  {
   "property": "C04",
   "status": "proved",
   "theorems": [
    "Verif.C04_unique_walk",
    "Verif.C06_unique",
    "Verif.C04_parts_partition",
    "Verif.C03_positions"
   ],
   "note": ""
  },
  {
   "property": "C05",
   "status": "proved",
   "theorems": [
    "Verif.C05_same_cuts"
   ],
   "note": ""
  },
  {
   "property": "C06",
   "status": "proved",
   "theorems": [
    "Verif.C06_shared",
    "Verif.C06_unique",
    "Verif.C06_even"
   ],
   "note": ""
  },
  {
   "property": "C07",
   "status": "proved",
   "theorems": [
    "Verif.C07_size_hint_shared",
    "Verif.C07_size_hint_unique",
    "Verif.C07_size_hint_items",
    "Verif.C07_C08_shared_parts",
    "Verif.C07_C08_unique_parts",
    "Verif.C12_split_off"
   ],
   "note": ""
  },
  {
   "property": "C08",
   "status": "proved",
   "theorems": [
    "Verif.C07_C08_shared_parts",
    "Verif.C07_C08_unique_parts",
    "Verif.remaining_contiguous",
    "Verif.C12_split_off"
   ],
   "note": ""
  },
  {
   "property": "C09",
   "status": "proved",
   "theorems": [
    "Verif.C09_no_growth",
    "Verif.C09_tight"
   ],
   "note": ""
  },
  {
   "property": "C10",
   "status": "proved",
   "theorems": [
    "Verif.C10_commute"
   ],
   "note": "Equal states up to exhaustion; past exhaustion the counters may differ but deque and len agree."
  },
  {
   "property": "C11",
   "status": "proved",
   "theorems": [
    "Verif.C11_conserves",
    "Verif.C11_walk",
    "Verif.C11_once",
    "Verif.C11_spec_conserves",
    "Verif.C11_locations_distinct"
   ],
   "note": ""
  },
  {
   "property": "C12",
   "status": "proved",
   "theorems": [
    "Verif.C12_split_off"
   ],
   "note": ""
  },
  {
   "property": "C13",
   "status": "proved",
   "theorems": [
    "Verif.C13_in_bounds"
   ],
   "note": ""
  },
  {
   "property": "C14",
   "status": "proved",
   "theorems": [
    "Verif.C14_safe",
    "Verif.C14_refines",
    "Verif.C14_handles"
   ],
   "note": "Every history of API calls on the heap model ends in .ok, never in an error state, and its answers are those of the specification machine."
  },
  {
   "property": "C15",
   "status": "proved",
   "theorems": [
    "Verif.C15_alive_iff_shown",
    "Verif.C15_weak_shows_nothing",
    "Verif.C15_shows",
    "Verif.C15_drop_moment",
    "Verif.C15_once"
   ],
   "note": ""
  },
  {
   "property": "C16",
   "status": "proved",
   "theorems": [
    "Verif.C16_no_leak"
   ],
   "note": ""
  },
  {
   "property": "C17",
   "status": "proved",
   "theorems": [
    "Verif.C17_memory_iff_kept",
    "Verif.C17_memory_outlives_items",
    "Verif.C17_freed_once"
   ],
   "note": ""
  },
  {
   "property": "C18",
   "status": "proved",
   "theorems": [
    "Verif.C18_get_mut_iff",
    "Verif.C18_any_item"
   ],
   "note": ""
  },
  {
   "property": "C19",
   "status": "proved",
   "theorems": [
    "Verif.C19_exclusive"
   ],
   "note": ""
  },
  {
   "property": "C20",
   "status": "proved",
   "theorems": [
    "Verif.C20_into_mut_iff",
    "Verif.C20_err_unchanged"
   ],
   "note": ""
  },
  {
   "property": "C21",
   "status": "proved",
   "theorems": [
    "Verif.C21_same_items",
    "Verif.C21_unique",
    "Verif.C21_weak_gone"
   ],
   "note": ""
  },
  {
   "property": "C22",
   "status": "proved",
   "theorems": [
    "Verif.C22_upgrade_iff",
    "Verif.C22_same_items"
   ],
   "note": ""
  },
  {
   "property": "C23",
   "status": "proved",
   "theorems": [
    "Verif.C23_new_never_upgrades",
    "Verif.C23_new"
   ],
   "note": ""
  },
  {
   "property": "C24",
   "status": "proved",
   "theorems": [
    "Verif.C24_weak_inert"
   ],
   "note": ""
  },
  {
   "property": "C25",
   "status": "proved",
   "theorems": [
    "Verif.C25_same_memory",
    "Verif.C25_same_items",
    "Verif.C25_read_stable"
   ],
   "note": ""
  },
  {
   "property": "C26",
   "status": "proved",
   "theorems": [
    "Verif.C26_into_immut",
    "Verif.C26_back",
    "Verif.C26_mut_immut"
   ],
   "note": ""
  },
  {
   "property": "C27",
   "status": "proved",
   "theorems": [
    "Verif.C27_deep_copy",
    "Verif.C27_independent"
   ],
   "note": ""
  },
  {
   "property": "C28",
   "status": "proved",
   "theorems": [
    "Verif.C28_same_member",
    "Verif.C28_same_steps",
    "Verif.C28_overlap",
    "Verif.C28_halves_disjoint"
   ],
   "note": ""
  },
  {
   "property": "C29",
   "status": "proved",
   "theorems": [
    "Verif.C29_other_half",
    "Verif.C29_disjoint",
    "Verif.C29_empty_blocks"
   ],
   "note": "C29_empty_blocks records that empty subslices still count as holders."
  },
  {
   "property": "C30",
   "status": "proved",
   "theorems": [
    "Verif.C30_eq",
    "Verif.C30_partial_cmp",
    "Verif.C30_cmp",
    "Verif.C30_cmp_eq",
    "Verif.C30_hash_borrow",
    "Verif.C30_hash_eq",
    "Verif.C30_debug"
   ],
   "note": "The impls for [T] in core are modelled as loops over the items."
  },
  {
   "property": "C31",
   "status": "proved",
   "theorems": [
    "Verif.C31_reentrant_safe",
    "Verif.C31_reentrant_refines",
    "Verif.C31_reentrant_disjoint"
   ],
   "note": ""
  },
  {
   "property": "C32",
   "status": "proved",
   "theorems": [
    "Verif.C32_drop_rest",
    "Verif.C32_yielded"
   ],
   "note": ""
  },
  {
   "property": "C33",
   "status": "proved",
   "theorems": [
    "Verif.C33_panic_is_drop",
    "Verif.C33_accepted"
   ],
   "note": ""
  },
  {
   "property": "C34",
   "status": "partial",
   "theorems": [
    "Verif.C34_fails",
    "Verif.C34_empty_keeps_nothing_partial",
    "Verif.C34_empty_has_no_alloc_partial"
   ],
   "note": "False as stated: split_off_right of a one-item unique slice leaves an empty slice that keeps the allocation (C34_fails). Proved for all histories without that call."
  },
  {
   "property": "C43",
   "status": "proved",
   "theorems": [
    "Verif.C43_needed",
    "Verif.C43_needed_parts",
    "Verif.C43_released",
    "Verif.C43_released_parts"
   ],
   "note": ""
  },
  {
   "property": "C35",
   "status": "proved",
   "theorems": [
    "Verif.C35_one_latch",
    "Verif.C35_closed_iff",
    "Verif.C35_latch_alive",
    "Verif.C35_try_close_clone",
    "Verif.C35_try_close_down",
    "Verif.C35_wait_clone",
    "Verif.C35_wait_down"
   ],
   "note": "For every history, including the ones in which other properties of ArcSlice fail."
  },
  {
   "property": "C36",
   "status": "proved",
   "theorems": [
    "Verif.C36_same_child",
    "Verif.C36_half",
    "Verif.C36_loser_drops_nothing"
   ],
   "note": "For all programs in which no WeakSlice of a part of a slice is upgraded while into_mut is running on that slice (see C39_fails for the others)."
  },
  {
   "property": "C37",
   "status": "proved",
   "theorems": [
    "Verif.C37_safe",
    "Verif.C37_shown_is_there",
    "Verif.C37_alive_iff_shown",
    "Verif.C37_handles_keep",
    "Verif.C37_once",
    "Verif.C37_start",
    "Verif.C37_write",
    "Verif.C37_gone_for_good",
    "Verif.C37_tight"
   ],
   "note": "For all programs made of the calls in the statement (and get_mut), and for all programs with into_mut in which no WeakSlice of a part of a slice is upgraded while into_mut is running on that slice. False of programs in which they overlap (C39_double_drop)."
  },
  {
   "property": "C38",
   "status": "partial",
   "theorems": [
    "Verif.C38_fails_descendant",
    "Verif.C38_fails_same",
    "Verif.C38_fails_late_downgrade",
    "Verif.C38_partial",
    "Verif.C38_C39_partial",
    "Verif.C38_C39_no_race",
    "Verif.C38_C39_tight"
   ],
   "note": "False as stated, already in one thread. Proved for all programs in which upgrade of a WeakSlice overlaps neither into_mut on a larger slice, nor get_mut, and the use of its result, on the same or a larger slice. None of these conditions can be dropped (C38_C39_tight)."
  },
  {
   "property": "C39",
   "status": "partial",
   "theorems": [
    "Verif.C39_fails",
    "Verif.C39_double_drop",
    "Verif.C39_partial",
    "Verif.C38_C39_partial",
    "Verif.C38_C39_no_race",
    "Verif.C38_C39_tight"
   ],
   "note": "False as stated: a race with WeakSlice::upgrade. Proved for all programs in which no WeakSlice of a part of a slice is upgraded while into_mut is running on that slice. Neither order of the two overlapping calls can be permitted (C38_C39_tight)."
  },
  {
   "property": "C40",
   "status": "partial",
   "theorems": [
    "Verif.C40_fails",
    "Verif.C40_partial"
   ],
   "note": "False as stated: boxed guard pointers are never freed. Proved: everything else is released, and exactly one weak reference per guard remains."
  },
  {
   "property": "C41",
   "status": "proved",
   "theorems": [
    "Verif.C41_retry_only_if_overtaken",
    "Verif.C41_same_call_reopens",
    "Verif.C41_gates_open"
   ],
   "note": "The statement about retries: for all programs in which no WeakSlice of a part of a slice is upgraded while into_mut is running on that slice. The statements about gates: for all programs."
  },
  {
   "property": "C42",
   "status": "proved",
   "theorems": [
    "Verif.C42_every_history",
    "Verif.C42_same_as_rc",
    "Verif.C42_only_as_rc",
    "Verif.C42_mild_of_no_getMut",
    "Verif.C42_mild_of_no_weak",
    "Verif.C42_weak_below_ignored",
    "Verif.C42_is_threaded"
   ],
   "note": "All calls of ArcSlice, WeakSlice, ArcSliceMut, ArcSliceMutIter and ArcSliceMutParts."
  },
  {
   "property": "C44",
   "status": "proved",
   "theorems": [
    "Verif.C44_comes_to_rest",
    "Verif.C44_no_deadlock",
    "Verif.C44_all_return"
   ],
   "note": "For all programs in which no WeakSlice of a part of a slice is upgraded while into_mut is running on that slice (see C39_fails for the others). That no new calls are made meanwhile is needed for some calls (C66_waiting_starves, C66_upgrade_starves), not for the others (C66_bounded)."
  },
  {
   "property": "C45",
   "status": "proved",
   "theorems": [
    "Verif.C45_get_mut",
    "Verif.C45_into_mut",
    "Verif.C45_get_mut_weak",
    "Verif.C45_downgrade",
    "Verif.C45_clone",
    "Verif.C45_get_mut_handle"
   ],
   "note": "Strong handles: for all programs in which no WeakSlice of a part of a slice is upgraded while into_mut is running on that slice. WeakSlices: for all programs; the last three theorems say which WeakSlices are meant."
  },
  {
   "property": "C46",
   "status": "proved",
   "theorems": [
    "Verif.C46_safe",
    "Verif.C46_handles",
    "Verif.C46_read_stable",
    "Verif.C46_quiet",
    "Verif.C46_bad_count"
   ],
   "note": "RcSliceParts on the heap of layer B, in release builds (see C03_clone_debug_panics for debug builds)."
  },
  {
   "property": "C47",
   "status": "proved",
   "theorems": [
    "Verif.C47_walk",
    "Verif.C47_clone",
    "Verif.C47_part"
   ],
   "note": "RcSliceParts on the heap of layer B, in release builds."
  },
  {
   "property": "C48",
   "status": "proved",
   "theorems": [
    "Verif.C48_alive_iff",
    "Verif.C48_unique",
    "Verif.C48_blocks",
    "Verif.C48_exclusive",
    "Verif.C48_drop",
    "Verif.C48_released"
   ],
   "note": "RcSliceParts on the heap of layer B, in release builds."
  },
  {
   "property": "C49",
   "status": "proved",
   "theorems": [
    "Verif.C49_granted",
    "Verif.C49_gone",
    "Verif.C49_forever",
    "Verif.C49_refused"
   ],
   "note": "For all programs in which no WeakSlice of a part of a slice is upgraded while into_mut is running on that slice."
  },
  {
   "property": "C50",
   "status": "partial",
   "theorems": [
    "Verif.Arc.C50_partial",
    "Verif.Arc.C50_noUpgrade_partial",
    "Verif.Arc.C50_noGetMut_partial",
    "Verif.Arc.C50_acquire_partial",
    "Verif.Arc.C50_acquire_noUpgrade_partial",
    "Verif.Arc.C50_fails_guard",
    "Verif.Arc.C50_fails_count",
    "Verif.Arc.C50_fails_upgrade"
   ],
   "note": "Proved as long as upgrade does not overlap into_mut on a larger slice, except where the earlier access is a write through the result of get_mut, or a read and the later one such a write. Proved for the former in programs without upgrade, and for the latter if strong_count and a failing Weak::upgrade acquire what they load (and upgrade does not overlap get_mut); with both, there are no data races at all. False of the rest: executions with a race of a read with a later get_mut for the orderings of std at the time of the crate (a failing Weak::upgrade does not acquire) and of today (strong_count does not acquire); and of a write through get_mut with a later read after upgrade, whatever the orderings."
  },
  {
   "property": "C51",
   "status": "proved",
   "theorems": [
    "Verif.Arc.C51_ordered",
    "Verif.Arc.C51_no_race",
    "Verif.Arc.C51_published",
    "Verif.Arc.C51_destroyed",
    "Verif.Arc.VConf.acc_noted",
    "Verif.Arc.VConf.changes_noted"
   ],
   "note": "For all programs in which no WeakSlice of a part of a slice is upgraded while into_mut is running on that slice. VConf.acc_noted and VConf.changes_noted say that the accesses considered include all atomic accesses and all changes. Destroying an object means dropping its contents; returning the memory of its counters, which weak references keep, is not modelled."
  },
  {
   "property": "C52",
   "status": "proved",
   "theorems": [
    "Verif.C52_panic_safe",
    "Verif.C52_panic_refines",
    "Verif.C52_panic_frame",
    "Verif.C52_memory_iff_kept",
    "Verif.C52_memory_returned",
    "Verif.C52_rest_dropped",
    "Verif.C52_outer_dropped",
    "Verif.C52_lost"
   ],
   "note": "Rc types. A second panic while the stack is unwound, which aborts the process, is treated as if unwinding started anew."
  },
  {
   "property": "C53",
   "status": "proved",
   "theorems": [
    "Verif.C53_safe",
    "Verif.C53_can_panic",
    "Verif.C53_shown_is_there",
    "Verif.C53_alive_iff_shown",
    "Verif.C53_panic",
    "Verif.C53_lost",
    "Verif.C53_rest_dropped",
    "Verif.C53_once",
    "Verif.C53_handles_keep",
    "Verif.C53_gone_for_good",
    "Verif.C53_exclusive",
    "Verif.C53_unique",
    "Verif.C53_released",
    "Verif.C53_gates",
    "Verif.C53_no_deadlock",
    "Verif.C53_all_return"
   ],
   "note": "Under the disciplines of C37 and C38. A second panic while the stack is unwound, which aborts the process, is treated as if unwinding started anew. The boxes of C40 are leaked with and without panics."
  },
  {
   "property": "C54",
   "status": "proved",
   "theorems": [
    "Verif.C54_where",
    "Verif.C54_drops"
   ],
   "note": "Under the discipline of C37; also if destructors panic."
  },
  {
   "property": "C55",
   "status": "proved",
   "theorems": [
    "Verif.C55_returns",
    "Verif.C55_delivered",
    "Verif.C55_stays"
   ],
   "note": "Under the discipline of C37. When get_mut and into_mut succeed is C49; which items a range shows, and that they stay, is C37."
  },
  {
   "property": "C56",
   "status": "proved",
   "theorems": [
    "Verif.C56_drop",
    "Verif.C56_lost",
    "Verif.C56_covered"
   ],
   "note": "Under the discipline of C37. The calls are those made by drop; upgrade, which may also run destructors, is covered by C54."
  },
  {
   "property": "C57",
   "status": "proved",
   "theorems": [
    "Verif.C57_split_off",
    "Verif.C57_next",
    "Verif.C57_clone",
    "Verif.C57_rest",
    "Verif.C57_new",
    "Verif.C57_split_off_ends",
    "Verif.C57_next_ends",
    "Verif.C57_clone_ends"
   ],
   "note": "Under the discipline of C37. The methods are programs that make calls of layer C one after another; other threads act at any time, but cannot take the thread's own handles. The last three theorems say that these methods can return from every situation, without new calls by others. With debug assertions, a cloned iterator is covered if its deque has at least the capacity of the old one."
  },
  {
   "property": "C58",
   "status": "proved",
   "theorems": [
    "Verif.C58_at_rest",
    "Verif.C58_only",
    "Verif.C58_into_mut_granted",
    "Verif.C58_get_mut_granted"
   ],
   "note": "For every rule under which upgrade does not overlap into_mut on a larger slice (the discipline of C37; see C40), with no reference from get_mut in use. What get_mut answers at rest is specified up to the choices of C42 (Spec/ArcWorld)."
  },
  {
   "property": "C59",
   "status": "proved",
   "theorems": [
    "Verif.C59_reads",
    "Verif.C59_one",
    "Verif.C59_constant",
    "Verif.C59_write",
    "Verif.C59_values",
    "Verif.C59_new",
    "Verif.C59_upgrade",
    "Verif.C59_would"
   ],
   "note": "Under the discipline of C38/C39 (no upgrade while into_mut runs, or get_mut runs or its result is used), without which exclusive access itself fails. Gives (Arc/Values) is the specification."
  },
  {
   "property": "C60",
   "status": "proved",
   "theorems": [
    "Verif.C60_safe",
    "Verif.C60_load",
    "Verif.C60_latest",
    "Verif.C60_covers",
    "Verif.C60_erase",
    "Verif.C60_shown_is_there",
    "Verif.C60_alive_iff_shown",
    "Verif.C60_once",
    "Verif.C60_handles_keep",
    "Verif.C60_exclusive",
    "Verif.C60_unique",
    "Verif.C60_released",
    "Verif.C60_no_deadlock"
   ],
   "note": "Under the disciplines of C37 and C38. Former values are over-approximated: every value the variable had in any earlier state. C60_erase says that this includes the executions of C61, as far as strong_count finds no 1 that is out of date."
  },
  {
   "property": "C61",
   "status": "partial",
   "theorems": [
    "Verif.C61_partial",
    "Verif.C61_fails_into_mut",
    "Verif.C61_fails_get_mut",
    "Verif.C61_fails_dropped"
   ],
   "note": "Proved for executions in which strong_count does not find a 1 that is out of date. False of the rest: executions without any WeakSlice, in which get_mut or into_mut on a slice is granted while another thread holds a part of it; and then the other thread sees a dropped item. The condition on what a load may find is stronger than that of C11 (only steps that did not happen before the load are missed), so these are executions of C11. Read-modify-write operations on x86 prevent them."
  },
  {
   "property": "C62",
   "status": "proved",
   "theorems": [
    "Verif.C62_local",
    "Verif.C62_start",
    "Verif.C62_iterate",
    "Verif.C62_clone",
    "Verif.C62_map",
    "Verif.C62_parts",
    "Verif.C62_no_parts"
   ],
   "note": "Sole (Arc/Local) is the specification: a thread alone, whose handles are lists of items. What upgrade finds is not determined there (see C59_upgrade). Under the discipline of C38/C39. Cloning an item copies it."
  },
  {
   "property": "C63",
   "status": "proved",
   "theorems": [
    "Verif.C63_safe",
    "Verif.C63_kept",
    "Verif.C63_once",
    "Verif.C63_rest",
    "Verif.C63_only_weak",
    "Verif.C63_gone",
    "Verif.C63_drained",
    "Verif.C63_same"
   ],
   "note": "WConf (Arc/Weak) adds the weak counters of ArcSliceData and SliceAlloc to the model; each step fails if it accesses a block whose counter is zero. Blocks of guards are never returned (C40). Under the discipline of C38."
  },
  {
   "property": "C64",
   "status": "proved",
   "theorems": [
    "Verif.C64_returned",
    "Verif.C64_once",
    "Verif.C64_iff",
    "Verif.C64_safe",
    "Verif.C64_same"
   ],
   "note": "BConf (Arc/Return) combines the happens-before model of C50 with the weak counters of C63. Holds whatever the orderings that /repo itself chooses are (o is arbitrary): it rests on those inside Arc and Weak, and on which of these each object holds. Panics are left out, as in C50. Under the discipline of C38."
  },
  {
   "property": "C65",
   "status": "proved",
   "theorems": [
    "Verif.C65_granted"
   ],
   "note": "Conf.Own is the specification of 'of one's own'. That no call on the same array is in flight is asked of the situation the theorem starts from, not of later ones; an example shows that it is needed: while upgrade looks for the other half of a dropped slice, get_mut on this half is refused. Under the discipline of C38."
  },
  {
   "property": "C66",
   "status": "proved",
   "theorems": [
    "Verif.C66_bounded",
    "Verif.C66_waiting_starves",
    "Verif.C66_upgrade_starves"
   ],
   "note": "maxTurns is the bound; a turn is one step of layer C: one access to shared memory, or the drop of one item. The bounds hold for all programs in which no WeakSlice of a part of a slice is upgraded while into_mut is running on that slice; the starvation theorems are about programs that never upgrade, and that never call get_mut or into_mut."
  },
  {
   "property": "C67",
   "status": "proved",
   "theorems": [
    "Verif.C67_traits",
    "Verif.C67_rc",
    "Verif.C67_home",
    "Verif.C67_leave",
    "Verif.C67_lost"
   ],
   "note": "Auto models the rules of the compiler for Send and Sync; TReach the programs that respect them. s.home b is the thread that made array b, s.on i the thread of call i. Under the discipline of C39."
  },
  {
   "property": "C68",
   "status": "partial",
   "theorems": [
    "Verif.C68_fails",
    "Verif.C68_one_thread_partial"
   ],
   "note": "False as stated, for the reason for which C38 is: the reference that get_mut returned is sent to another thread, and a WeakSlice of a part is upgraded on the first. Proved under the discipline of C38."
  },
  {
   "property": "C69",
   "status": "proved",
   "theorems": [
    "Verif.C69_blocks",
    "Verif.C69_once",
    "Verif.C69_guards"
   ],
   "note": "c.blocks f lists all records (ArcSliceData) ever put to use for the f-th slice made by new or into_immut, dropped or not; most n is 3 n - 1, or 1 if n = 0. A record that loses the race to become a child is dropped at once, and not counted. Under the discipline of C38."
  },
  {
   "property": "C70",
   "status": "proved",
   "theorems": [
    "Verif.C70_stack",
    "Verif.C70_usize"
   ],
   "note": "The invocations waiting are those the model keeps explicitly: frames of guard, pending drops, pending children of forget_items. The recursion of the drop glue of guards is bounded by the number of ancestors (Above). Destructors of items are user code and not counted. Under the discipline of C38."
  },
  {
   "property": "C71",
   "status": "proved",
   "theorems": [
    "Verif.C71_blocks",
    "Verif.C71_once",
    "Verif.C71_getMutGuards",
    "Verif.C71_intoMutGuards"
   ],
   "note": "most n = 3n - 1 (1 for n = 0) is attained by an example. Slice data counts from allocation on, dropped or not; guards count while they are live or referred to by Weaks."
  },
  {
   "property": "C72",
   "status": "proved",
   "theorems": [
    "Verif.C72_stack"
   ],
   "note": "The recursion of drops, of forget_items and of ensure_into_mut_guard follows the references of live records, whose chains (Inside) are bounded; both bounds are attained by examples. Destructors of items are user code and not counted."
  },
  {
   "property": "C73",
   "status": "proved",
   "theorems": [
    "Verif.C73_where",
    "Verif.C73_drops",
    "Verif.C73_parts"
   ],
   "note": "At every point of a call (Within), no destructor of an item is running and no item has been dropped, unless the call is one of those listed; split_off is covered by the fact that both halves are held when the whole is dropped."
  },
  {
   "property": "C74",
   "status": "proved",
   "theorems": [
    "Verif.C74_guards",
    "Verif.C74_data",
    "Verif.C74_weak"
   ],
   "note": "strongs and weaks count the handles; alive and kept are the values not dropped and the blocks of memory not returned. The 4 (m + 2) is the sum of the bounds for IntoMutGuards and GetMutGuards in C74_weak."
  },
  {
   "property": "C75",
   "status": "proved",
   "theorems": [
    "Verif.C75_data",
    "Verif.C75_img",
    "Verif.C75_gmg",
    "Verif.C75_alloc"
   ],
   "note": "Counts between the calls and drops that make up a program; within a call a count may be larger by one."
  },
  {
   "property": "C76",
   "status": "proved",
   "theorems": [
    "Verif.C76_data",
    "Verif.C76_alloc",
    "Verif.C76_guard",
    "Verif.C76_weak"
   ],
   "note": "For programs that do not call upgrade while another thread is in into_mut on something larger (`PTame`, as for C69 and C70): with such calls the code may free memory that is in use (see C38)."
  },
  {
   "property": "C77",
   "status": "proved",
   "theorems": [
    "Verif.C77_exact",
    "Verif.C77_who",
    "Verif.C77_others",
    "Verif.C77_unbounded"
   ],
   "note": "Blocks of subslices that lost a race of two clone_left or two clone_right and were never in use are not modelled; they are leaked in addition, by these calls."
  },
  {
   "property": "C78",
   "status": "proved",
   "theorems": [
    "Verif.C78_guards",
    "Verif.C78_guards_rest",
    "Verif.C78_husks",
    "Verif.C78_weak"
   ],
   "note": "For programs in which upgrade does not overlap into_mut on something larger (PTame; otherwise into_mut is unsound, C39_fails). husks are blocks the value of which has been dropped. The guards whose blocks are leaked (C77) have been dropped as values, and are not counted."
  },
  {
   "property": "C79",
   "status": "proved",
   "theorems": [
    "Verif.C79_cloneSide",
    "Verif.C79_downgrade",
    "Verif.C79_upgrade",
    "Verif.C79_alone",
    "Verif.C79_middle",
    "Verif.C79_free",
    "Verif.C79_waits",
    "Verif.C79_levels"
   ],
   "note": "For programs in which upgrade does not overlap into_mut on something larger (PTame; otherwise into_mut is unsound, C39_fails). Steps are those of the model, one per atomic operation. C79_alone covers all calls, those bounded by C66 included; C79_middle says that calls in the middle, too, return or come to wait for a gate when others pause (without a bound); C79_free says that nobody has to wait while no get_mut or into_mut is in flight; C79_waits that mustWait is not too strong."
  },
  {
   "property": "C80",
   "status": "proved",
   "theorems": [
    "Verif.C80_unique",
    "Verif.C80_rejected",
    "Verif.C80_shared",
    "Verif.C80_panic",
    "Verif.C80_one_panic",
    "Verif.C80_shared_panic",
    "Verif.C80_shared_one_panic",
    "Verif.C80_arc",
    "Verif.C80_split_fails"
   ],
   "note": "C80_unique, C80_rejected and C80_shared are of the Rc version, for destructors that do not panic; C80_panic and C80_shared_panic allow any number of panics, and C80_one_panic and C80_shared_one_panic say more if there is one: nothing is lost (items are lost only if cleaning up after a panic panics again, upon which Rust aborts; the model goes on); C80_arc is of an ArcSliceMut, with panics, where no upgrade overlaps an into_mut (PTame); nothing is said about the last handle on an ArcSlice. That drop_in_place drops the items of a slice in order is a promise of Rust and part of the model (taskStep); the theorems say that it is kept across calls that destructors make, and that nobody revives or takes the items that are still to be dropped. That no half was ever taken is read off the slice (kids). C80_split_fails shows that an RcSlice of which the right half was taken drops that half first."
  }
 ]
}