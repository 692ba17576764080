#!/usr/bin/env python3
"""Writes MANIFEST.json."""
import json
P, PA, NA = "proved", "partial", "not_applicable"
C = []
def c(pid, status, thms, note=""):
    C.append({"property": pid, "status": status, "theorems": ["Verif." + t for t in thms], "note": note})

c("C01", P, ["C01_unique_halving", "C01_shared_halving"], "Every length and offset, zero-sized items included.")
c("C02", P, ["C02_shared", "C02_unique"])
c("C03", P, ["C03_any_splitting", "C03_shared_walk", "C03_positions", "parts_digit", "C03_clone_release", "C03_clone_debug_panics"],
  "In debug builds a cloned iterator trips a debug_assert (VecDeque::clone does not keep the capacity): C03_clone_debug_panics. Without debug assertions clones behave like the original.")
c("C04", P, ["C04_unique_walk", "C06_unique", "C04_parts_partition", "C03_positions"])
c("C05", P, ["C05_same_cuts"])
c("C06", P, ["C06_shared", "C06_unique", "C06_even"])
c("C07", P, ["C07_size_hint_shared", "C07_size_hint_unique", "C07_size_hint_items", "C07_C08_shared_parts", "C07_C08_unique_parts", "C12_split_off"])
c("C08", P, ["C07_C08_shared_parts", "C07_C08_unique_parts", "remaining_contiguous", "C12_split_off"])
c("C09", P, ["C09_no_growth", "C09_tight"])
c("C10", P, ["C10_commute"], "Equal states up to exhaustion; past exhaustion the counters may differ but deque and len agree.")
c("C11", P, ["C11_conserves", "C11_walk", "C11_once", "C11_spec_conserves", "C11_locations_distinct"])
c("C12", P, ["C12_split_off"])
c("C13", P, ["C13_in_bounds"])
c("C14", P, ["C14_safe", "C14_refines", "C14_handles"], "Every history of API calls on the heap model ends in .ok, never in an error state, and its answers are those of the specification machine.")
c("C15", P, ["C15_alive_iff_shown", "C15_weak_shows_nothing", "C15_shows", "C15_drop_moment", "C15_once"])
c("C16", P, ["C16_no_leak"])
c("C17", P, ["C17_memory_iff_kept", "C17_memory_outlives_items", "C17_freed_once"])
c("C18", P, ["C18_get_mut_iff", "C18_any_item"])
c("C19", P, ["C19_exclusive"])
c("C20", P, ["C20_into_mut_iff", "C20_err_unchanged"])
c("C21", P, ["C21_same_items", "C21_unique", "C21_weak_gone"])
c("C22", P, ["C22_upgrade_iff", "C22_same_items"])
c("C23", P, ["C23_new_never_upgrades", "C23_new"])
c("C24", P, ["C24_weak_inert"])
c("C25", P, ["C25_same_memory", "C25_same_items", "C25_read_stable"])
c("C26", P, ["C26_into_immut", "C26_back", "C26_mut_immut"])
c("C27", P, ["C27_deep_copy", "C27_independent"])
c("C28", P, ["C28_same_member", "C28_same_steps", "C28_overlap", "C28_halves_disjoint"])
c("C29", P, ["C29_other_half", "C29_disjoint", "C29_empty_blocks"], "C29_empty_blocks records that empty subslices still count as holders.")
c("C30", P, ["C30_eq", "C30_partial_cmp", "C30_cmp", "C30_cmp_eq", "C30_hash_borrow", "C30_hash_eq", "C30_debug"], "The impls for [T] in core are modelled as loops over the items.")
c("C31", P, ["C31_reentrant_safe", "C31_reentrant_refines", "C31_reentrant_disjoint"])
c("C32", P, ["C32_drop_rest", "C32_yielded"])
c("C33", P, ["C33_panic_is_drop", "C33_accepted"])
c("C34", PA, ["C34_fails", "C34_empty_keeps_nothing_partial", "C34_empty_has_no_alloc_partial"],
  "False as stated: split_off_right of a one-item unique slice leaves an empty slice that keeps the allocation (C34_fails). Proved for all histories without that call.")
c("C43", P, ["C43_needed", "C43_needed_parts", "C43_released", "C43_released_parts"])
c("C35", P, ["C35_one_latch", "C35_closed_iff", "C35_latch_alive", "C35_try_close_clone", "C35_try_close_down", "C35_wait_clone", "C35_wait_down"], "For every history, including the ones in which other properties of ArcSlice fail.")
c("C36", P, ["C36_same_child", "C36_half", "C36_loser_drops_nothing"],
  "For all programs in which no WeakSlice of a part of a slice is upgraded while into_mut is running on that slice (see C39_fails for the others).")
c("C37", P, ["C37_safe", "C37_shown_is_there", "C37_alive_iff_shown", "C37_handles_keep", "C37_once", "C37_start", "C37_write", "C37_gone_for_good", "C37_tight"],
  "For all programs made of the calls in the statement (and get_mut), and for all programs with into_mut in which no WeakSlice of a part of a slice is upgraded while into_mut is running on that slice. False of programs in which they overlap (C39_double_drop).")
c("C38", PA, ["C38_fails_descendant", "C38_fails_same", "C38_fails_late_downgrade", "C38_partial", "C38_C39_partial", "C38_C39_no_race", "C38_C39_tight"],
  "False as stated, already in one thread. Proved for all programs in which upgrade of a WeakSlice overlaps neither into_mut on a larger slice, nor get_mut, and the use of its result, on the same or a larger slice. None of these conditions can be dropped (C38_C39_tight).")
c("C39", PA, ["C39_fails", "C39_double_drop", "C39_partial", "C38_C39_partial", "C38_C39_no_race", "C38_C39_tight"],
  "False as stated: a race with WeakSlice::upgrade. Proved for all programs in which no WeakSlice of a part of a slice is upgraded while into_mut is running on that slice. Neither order of the two overlapping calls can be permitted (C38_C39_tight).")
c("C40", PA, ["C40_fails", "C40_partial"],
  "False as stated: boxed guard pointers are never freed. Proved: everything else is released, and exactly one weak reference per guard remains.")
c("C41", P, ["C41_retry_only_if_overtaken", "C41_same_call_reopens", "C41_gates_open"],
  "The statement about retries: for all programs in which no WeakSlice of a part of a slice is upgraded while into_mut is running on that slice. The statements about gates: for all programs.")
c("C42", P, ["C42_every_history", "C42_same_as_rc", "C42_only_as_rc", "C42_mild_of_no_getMut", "C42_mild_of_no_weak", "C42_weak_below_ignored", "C42_is_threaded"],
  "All calls of ArcSlice, WeakSlice, ArcSliceMut, ArcSliceMutIter and ArcSliceMutParts.")
c("C44", P, ["C44_comes_to_rest", "C44_no_deadlock", "C44_all_return"],
  "For all programs in which no WeakSlice of a part of a slice is upgraded while into_mut is running on that slice (see C39_fails for the others). That no new calls are made meanwhile is needed for some calls (C66_waiting_starves, C66_upgrade_starves), not for the others (C66_bounded).")
c("C45", P, ["C45_get_mut", "C45_into_mut", "C45_get_mut_weak", "C45_downgrade", "C45_clone", "C45_get_mut_handle"],
  "Strong handles: for all programs in which no WeakSlice of a part of a slice is upgraded while into_mut is running on that slice. WeakSlices: for all programs; the last three theorems say which WeakSlices are meant.")
c("C46", P, ["C46_safe", "C46_handles", "C46_read_stable", "C46_quiet", "C46_bad_count"],
  "RcSliceParts on the heap of layer B, in release builds (see C03_clone_debug_panics for debug builds).")
c("C47", P, ["C47_walk", "C47_clone", "C47_part"], "RcSliceParts on the heap of layer B, in release builds.")
c("C48", P, ["C48_alive_iff", "C48_unique", "C48_blocks", "C48_exclusive", "C48_drop", "C48_released"],
  "RcSliceParts on the heap of layer B, in release builds.")
c("C49", P, ["C49_granted", "C49_gone", "C49_forever", "C49_refused"],
  "For all programs in which no WeakSlice of a part of a slice is upgraded while into_mut is running on that slice.")
c("C50", PA, ["Arc.C50_partial", "Arc.C50_noUpgrade_partial", "Arc.C50_noGetMut_partial", "Arc.C50_acquire_partial", "Arc.C50_acquire_noUpgrade_partial", "Arc.C50_fails_guard", "Arc.C50_fails_count", "Arc.C50_fails_upgrade"],
  "Proved as long as upgrade does not overlap into_mut on a larger slice, except where the earlier access is a write through the result of get_mut, or a read and the later one such a write. Proved for the former in programs without upgrade, and for the latter if strong_count and a failing Weak::upgrade acquire what they load (and upgrade does not overlap get_mut); with both, there are no data races at all. False of the rest: executions with a race of a read with a later get_mut for the orderings of std at the time of the crate (a failing Weak::upgrade does not acquire) and of today (strong_count does not acquire); and of a write through get_mut with a later read after upgrade, whatever the orderings.")
c("C51", P, ["Arc.C51_ordered", "Arc.C51_no_race", "Arc.C51_published", "Arc.C51_destroyed", "Arc.VConf.acc_noted", "Arc.VConf.changes_noted"],
  "For all programs in which no WeakSlice of a part of a slice is upgraded while into_mut is running on that slice. VConf.acc_noted and VConf.changes_noted say that the accesses considered include all atomic accesses and all changes. Destroying an object means dropping its contents; returning the memory of its counters, which weak references keep, is not modelled.")
c("C52", P, ["C52_panic_safe", "C52_panic_refines", "C52_panic_frame", "C52_memory_iff_kept", "C52_memory_returned", "C52_rest_dropped", "C52_outer_dropped", "C52_lost"],
  "Rc types. A second panic while the stack is unwound, which aborts the process, is treated as if unwinding started anew.")
c("C53", P, ["C53_safe", "C53_can_panic", "C53_shown_is_there", "C53_alive_iff_shown", "C53_panic", "C53_lost", "C53_rest_dropped", "C53_once", "C53_handles_keep",
  "C53_gone_for_good", "C53_exclusive", "C53_unique", "C53_released", "C53_gates", "C53_no_deadlock", "C53_all_return"],
  "Under the disciplines of C37 and C38. A second panic while the stack is unwound, which aborts the process, is treated as if unwinding started anew. The boxes of C40 are leaked with and without panics.")
c("C54", P, ["C54_where", "C54_drops"], "Under the discipline of C37; also if destructors panic.")
c("C55", P, ["C55_returns", "C55_delivered", "C55_stays"],
  "Under the discipline of C37. When get_mut and into_mut succeed is C49; which items a range shows, and that they stay, is C37.")
c("C56", P, ["C56_drop", "C56_lost", "C56_covered"],
  "Under the discipline of C37. The calls are those made by drop; upgrade, which may also run destructors, is covered by C54.")
c("C57", P, ["C57_split_off", "C57_next", "C57_clone", "C57_rest", "C57_new",
  "C57_split_off_ends", "C57_next_ends", "C57_clone_ends"],
  "Under the discipline of C37. The methods are programs that make calls of layer C one after another; other threads act at any time, but cannot take the thread's own handles. The last three theorems say that these methods can return from every situation, without new calls by others. With debug assertions, a cloned iterator is covered if its deque has at least the capacity of the old one.")
c("C58", P, ["C58_at_rest", "C58_only", "C58_into_mut_granted", "C58_get_mut_granted"],
  "For every rule under which upgrade does not overlap into_mut on a larger slice (the discipline of C37; see C40), with no reference from get_mut in use. What get_mut answers at rest is specified up to the choices of C42 (Spec/ArcWorld).")
c("C59", P, ["C59_reads", "C59_one", "C59_constant", "C59_write", "C59_values", "C59_new", "C59_upgrade", "C59_would"],
  "Under the discipline of C38/C39 (no upgrade while into_mut runs, or get_mut runs or its result is used), without which exclusive access itself fails. Gives (Arc/Values) is the specification.")
c("C60", P, ["C60_safe", "C60_load", "C60_latest", "C60_covers", "C60_erase", "C60_shown_is_there", "C60_alive_iff_shown", "C60_once", "C60_handles_keep", "C60_exclusive", "C60_unique", "C60_released", "C60_no_deadlock"],
  "Under the disciplines of C37 and C38. Former values are over-approximated: every value the variable had in any earlier state. C60_erase says that this includes the executions of C61, as far as strong_count finds no 1 that is out of date.")
c("C61", PA, ["C61_partial", "C61_fails_into_mut", "C61_fails_get_mut", "C61_fails_dropped"],
  "Proved for executions in which strong_count does not find a 1 that is out of date. False of the rest: executions without any WeakSlice, in which get_mut or into_mut on a slice is granted while another thread holds a part of it; and then the other thread sees a dropped item. The condition on what a load may find is stronger than that of C11 (only steps that did not happen before the load are missed), so these are executions of C11. Read-modify-write operations on x86 prevent them.")
c("C62", P, ["C62_local", "C62_start", "C62_iterate", "C62_clone", "C62_map", "C62_parts", "C62_no_parts"],
  "Sole (Arc/Local) is the specification: a thread alone, whose handles are lists of items. What upgrade finds is not determined there (see C59_upgrade). Under the discipline of C38/C39. Cloning an item copies it.")
c("C63", P, ["C63_safe", "C63_kept", "C63_once", "C63_rest", "C63_only_weak", "C63_gone", "C63_drained", "C63_same"],
  "WConf (Arc/Weak) adds the weak counters of ArcSliceData and SliceAlloc to the model; each step fails if it accesses a block whose counter is zero. Blocks of guards are never returned (C40). Under the discipline of C38.")
c("C64", P, ["C64_returned", "C64_once", "C64_iff", "C64_safe", "C64_same"],
  "BConf (Arc/Return) combines the happens-before model of C50 with the weak counters of C63. Holds whatever the orderings that /repo itself chooses are (o is arbitrary): it rests on those inside Arc and Weak, and on which of these each object holds. Panics are left out, as in C50. Under the discipline of C38.")
c("C65", P, ["C65_granted"],
  "Conf.Own is the specification of 'of one\'s own'. That no call on the same array is in flight is asked of the situation the theorem starts from, not of later ones; an example shows that it is needed: while upgrade looks for the other half of a dropped slice, get_mut on this half is refused. Under the discipline of C38.")
c("C66", P, ["C66_bounded", "C66_waiting_starves", "C66_upgrade_starves"],
  "maxTurns is the bound; a turn is one step of layer C: one access to shared memory, or the drop of one item. The bounds hold for all programs in which no WeakSlice of a part of a slice is upgraded while into_mut is running on that slice; the starvation theorems are about programs that never upgrade, and that never call get_mut or into_mut.")
c("C67", P, ["C67_traits", "C67_rc", "C67_home", "C67_leave", "C67_lost"],
  "Auto models the rules of the compiler for Send and Sync; TReach the programs that respect them. s.home b is the thread that made array b, s.on i the thread of call i. Under the discipline of C39.")
c("C68", PA, ["C68_fails", "C68_one_thread_partial"],
  "False as stated, for the reason for which C38 is: the reference that get_mut returned is sent to another thread, and a WeakSlice of a part is upgraded on the first. Proved under the discipline of C38.")
c("C69", P, ["C69_blocks", "C69_once", "C69_guards"],
  "c.blocks f lists all records (ArcSliceData) ever put to use for the f-th slice made by new or into_immut, dropped or not; most n is 3 n - 1, or 1 if n = 0. A record that loses the race to become a child is dropped at once, and not counted. Under the discipline of C38.")
c("C70", P, ["C70_stack", "C70_usize"],
  "The invocations waiting are those the model keeps explicitly: frames of guard, pending drops, pending children of forget_items. The recursion of the drop glue of guards is bounded by the number of ancestors (Above). Destructors of items are user code and not counted. Under the discipline of C38.")
c("C71", P, ["C71_blocks", "C71_once", "C71_getMutGuards", "C71_intoMutGuards"],
  "most n = 3n - 1 (1 for n = 0) is attained by an example. Slice data counts from allocation on, dropped or not; guards count while they are live or referred to by Weaks.")
c("C72", P, ["C72_stack"],
  "The recursion of drops, of forget_items and of ensure_into_mut_guard follows the references of live records, whose chains (Inside) are bounded; both bounds are attained by examples. Destructors of items are user code and not counted.")
c("C73", P, ["C73_where", "C73_drops", "C73_parts"],
  "At every point of a call (Within), no destructor of an item is running and no item has been dropped, unless the call is one of those listed; split_off is covered by the fact that both halves are held when the whole is dropped.")
c("C74", P, ["C74_guards", "C74_data", "C74_weak"],
  "strongs and weaks count the handles; alive and kept are the values not dropped and the blocks of memory not returned. The 4 (m + 2) is the sum of the bounds for IntoMutGuards and GetMutGuards in C74_weak.")
c("C75", P, ["C75_data", "C75_img", "C75_gmg", "C75_alloc"], "Counts between the calls and drops that make up a program; within a call a count may be larger by one.")

c("C76", P, ["C76_data", "C76_alloc", "C76_guard", "C76_weak"], "For programs that do not call upgrade while another thread is in into_mut on something larger (`PTame`, as for C69 and C70): with such calls the code may free memory that is in use (see C38).")

c("C77", P, ["C77_exact", "C77_who", "C77_others", "C77_unbounded"], "Blocks of subslices that lost a race of two clone_left or two clone_right and were never in use are not modelled; they are leaked in addition, by these calls.")
c("C78", P, ["C78_guards", "C78_guards_rest", "C78_husks", "C78_weak"], "For programs in which upgrade does not overlap into_mut on something larger (PTame; otherwise into_mut is unsound, C39_fails). husks are blocks the value of which has been dropped. The guards whose blocks are leaked (C77) have been dropped as values, and are not counted.")
c("C79", P, ["C79_cloneSide", "C79_downgrade", "C79_upgrade", "C79_alone", "C79_middle", "C79_free", "C79_waits", "C79_levels"], "For programs in which upgrade does not overlap into_mut on something larger (PTame; otherwise into_mut is unsound, C39_fails). Steps are those of the model, one per atomic operation. C79_alone covers all calls, those bounded by C66 included; C79_middle says that calls in the middle, too, return or come to wait for a gate when others pause (without a bound); C79_free says that nobody has to wait while no get_mut or into_mut is in flight; C79_waits that mustWait is not too strong.")
c("C80", P, ["C80_unique", "C80_rejected", "C80_shared", "C80_panic", "C80_one_panic", "C80_shared_panic", "C80_shared_one_panic", "C80_arc", "C80_split_fails"], "C80_unique, C80_rejected and C80_shared are of the Rc version, for destructors that do not panic; C80_panic and C80_shared_panic allow any number of panics, and C80_one_panic and C80_shared_one_panic say more if there is one: nothing is lost (items are lost only if cleaning up after a panic panics again, upon which Rust aborts; the model goes on); C80_arc is of an ArcSliceMut, with panics, where no upgrade overlaps an into_mut (PTame); nothing is said about the last handle on an ArcSlice. That drop_in_place drops the items of a slice in order is a promise of Rust and part of the model (taskStep); the theorems say that it is kept across calls that destructors make, and that nobody revives or takes the items that are still to be dropped. That no half was ever taken is read off the slice (kids). C80_split_fails shows that an RcSlice of which the right half was taken drops that half first.")
json.dump({"claims": C}, open("/verif/MANIFEST.json", "w"), indent=1)
