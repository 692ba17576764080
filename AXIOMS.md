# Axioms used by the theorems named in MANIFEST.json

Output of `tools/gen_axioms.py` (`#print axioms`).

| theorem | axioms |
|---|---|
| `Verif.C01_unique_halving` | Classical.choice, Quot.sound, propext |
| `Verif.C01_shared_halving` | Classical.choice, Quot.sound, propext |
| `Verif.C02_shared` | Classical.choice, Quot.sound, propext |
| `Verif.C02_unique` | Classical.choice, Quot.sound, propext |
| `Verif.C03_any_splitting` | Classical.choice, Quot.sound, propext |
| `Verif.C03_shared_walk` | Classical.choice, Quot.sound, propext |
| `Verif.C03_positions` | Classical.choice, Quot.sound, propext |
| `Verif.parts_digit` | Quot.sound, propext |
| `Verif.C03_clone_release` | Classical.choice, Quot.sound, propext |
| `Verif.C03_clone_debug_panics` | Quot.sound, propext |
| `Verif.C04_unique_walk` | Classical.choice, Quot.sound, propext |
| `Verif.C06_unique` | Classical.choice, Quot.sound, propext |
| `Verif.C04_parts_partition` | Quot.sound, propext |
| `Verif.C05_same_cuts` | Classical.choice, Quot.sound, propext |
| `Verif.C06_shared` | Classical.choice, Quot.sound, propext |
| `Verif.C06_even` | Classical.choice, Quot.sound, propext |
| `Verif.C07_size_hint_shared` | Classical.choice, Quot.sound, propext |
| `Verif.C07_size_hint_unique` | Classical.choice, Quot.sound, propext |
| `Verif.C07_size_hint_items` | Classical.choice, Quot.sound, propext |
| `Verif.C07_C08_shared_parts` | Classical.choice, Quot.sound, propext |
| `Verif.C07_C08_unique_parts` | Classical.choice, Quot.sound, propext |
| `Verif.C12_split_off` | Classical.choice, Quot.sound, propext |
| `Verif.remaining_contiguous` | Classical.choice, Quot.sound, propext |
| `Verif.C09_no_growth` | Classical.choice, Quot.sound, propext |
| `Verif.C09_tight` | Classical.choice, Quot.sound, propext |
| `Verif.C10_commute` | Classical.choice, Quot.sound, propext |
| `Verif.C11_conserves` | Classical.choice, Quot.sound, propext |
| `Verif.C11_walk` | Classical.choice, Quot.sound, propext |
| `Verif.C11_once` | Quot.sound, propext |
| `Verif.C11_spec_conserves` | Quot.sound, propext |
| `Verif.C11_locations_distinct` | Classical.choice, Quot.sound, propext |
| `Verif.C13_in_bounds` | Classical.choice, Quot.sound, propext |
| `Verif.C14_safe` | Classical.choice, Quot.sound, propext |
| `Verif.C14_refines` | Classical.choice, Quot.sound, propext |
| `Verif.C14_handles` | Classical.choice, Quot.sound, propext |
| `Verif.C15_alive_iff_shown` | Classical.choice, Quot.sound, propext |
| `Verif.C15_weak_shows_nothing` | Quot.sound, propext |
| `Verif.C15_shows` | Classical.choice, Quot.sound, propext |
| `Verif.C15_drop_moment` | Classical.choice, Quot.sound, propext |
| `Verif.C15_once` | Classical.choice, Quot.sound, propext |
| `Verif.C16_no_leak` | Classical.choice, Quot.sound, propext |
| `Verif.C17_memory_iff_kept` | Classical.choice, Quot.sound, propext |
| `Verif.C17_memory_outlives_items` | Classical.choice, Quot.sound, propext |
| `Verif.C17_freed_once` | Classical.choice, Quot.sound, propext |
| `Verif.C18_get_mut_iff` | Classical.choice, Quot.sound, propext |
| `Verif.C18_any_item` | Classical.choice, Quot.sound, propext |
| `Verif.C19_exclusive` | Classical.choice, Quot.sound, propext |
| `Verif.C20_into_mut_iff` | Classical.choice, Quot.sound, propext |
| `Verif.C20_err_unchanged` | Quot.sound, propext |
| `Verif.C21_same_items` | Classical.choice, Quot.sound, propext |
| `Verif.C21_unique` | Classical.choice, Quot.sound, propext |
| `Verif.C21_weak_gone` | Classical.choice, Quot.sound, propext |
| `Verif.C22_upgrade_iff` | Classical.choice, Quot.sound, propext |
| `Verif.C22_same_items` | Classical.choice, Quot.sound, propext |
| `Verif.C23_new_never_upgrades` | Classical.choice, Quot.sound, propext |
| `Verif.C23_new` | Classical.choice, Quot.sound, propext |
| `Verif.C24_weak_inert` | Classical.choice, Quot.sound, propext |
| `Verif.C25_same_memory` | Classical.choice, Quot.sound, propext |
| `Verif.C25_same_items` | Classical.choice, Quot.sound, propext |
| `Verif.C25_read_stable` | Classical.choice, Quot.sound, propext |
| `Verif.C26_into_immut` | Classical.choice, Quot.sound, propext |
| `Verif.C26_back` | Classical.choice, Quot.sound, propext |
| `Verif.C26_mut_immut` | Classical.choice, Quot.sound, propext |
| `Verif.C27_deep_copy` | Classical.choice, Quot.sound, propext |
| `Verif.C27_independent` | Classical.choice, Quot.sound, propext |
| `Verif.C28_same_member` | Classical.choice, Quot.sound, propext |
| `Verif.C28_same_steps` | Classical.choice, Quot.sound, propext |
| `Verif.C28_overlap` | Classical.choice, Quot.sound, propext |
| `Verif.C28_halves_disjoint` | Classical.choice, Quot.sound, propext |
| `Verif.C29_other_half` | Classical.choice, Quot.sound, propext |
| `Verif.C29_disjoint` | Classical.choice, Quot.sound, propext |
| `Verif.C29_empty_blocks` | Quot.sound, propext |
| `Verif.C30_eq` | Classical.choice, Quot.sound, propext |
| `Verif.C30_partial_cmp` | Classical.choice, Quot.sound, propext |
| `Verif.C30_cmp` | Classical.choice, Quot.sound, propext |
| `Verif.C30_cmp_eq` | Classical.choice, Quot.sound, propext |
| `Verif.C30_hash_borrow` | Quot.sound, propext |
| `Verif.C30_hash_eq` | Classical.choice, Quot.sound, propext |
| `Verif.C30_debug` | Classical.choice, Quot.sound, propext |
| `Verif.C31_reentrant_safe` | Classical.choice, Quot.sound, propext |
| `Verif.C31_reentrant_refines` | Classical.choice, Quot.sound, propext |
| `Verif.C31_reentrant_disjoint` | Classical.choice, Quot.sound, propext |
| `Verif.C32_drop_rest` | Classical.choice, Quot.sound, propext |
| `Verif.C32_yielded` | Classical.choice, Quot.sound, propext |
| `Verif.C33_panic_is_drop` | Classical.choice, Quot.sound, propext |
| `Verif.C33_accepted` | Classical.choice, Quot.sound, propext |
| `Verif.C34_fails` | Classical.choice, Quot.sound, propext |
| `Verif.C34_empty_keeps_nothing_partial` | Classical.choice, Quot.sound, propext |
| `Verif.C34_empty_has_no_alloc_partial` | Classical.choice, Quot.sound, propext |
| `Verif.C43_needed` | Classical.choice, Quot.sound, propext |
| `Verif.C43_needed_parts` | Classical.choice, Quot.sound, propext |
| `Verif.C43_released` | Classical.choice, Quot.sound, propext |
| `Verif.C43_released_parts` | Classical.choice, Quot.sound, propext |
| `Verif.C35_one_latch` | Classical.choice, Quot.sound, propext |
| `Verif.C35_closed_iff` | Classical.choice, Quot.sound, propext |
| `Verif.C35_latch_alive` | Classical.choice, Quot.sound, propext |
| `Verif.C35_try_close_clone` | Classical.choice, Quot.sound, propext |
| `Verif.C35_try_close_down` | Classical.choice, Quot.sound, propext |
| `Verif.C35_wait_clone` | Classical.choice, Quot.sound, propext |
| `Verif.C35_wait_down` | Classical.choice, Quot.sound, propext |
| `Verif.C36_same_child` | Classical.choice, Quot.sound, propext |
| `Verif.C36_half` | Classical.choice, Quot.sound, propext |
| `Verif.C36_loser_drops_nothing` | Classical.choice, Quot.sound, propext |
| `Verif.C37_safe` | Classical.choice, Quot.sound, propext |
| `Verif.C37_shown_is_there` | Classical.choice, Quot.sound, propext |
| `Verif.C37_alive_iff_shown` | Classical.choice, Quot.sound, propext |
| `Verif.C37_handles_keep` | Classical.choice, Quot.sound, propext |
| `Verif.C37_once` | Classical.choice, Quot.sound, propext |
| `Verif.C37_start` | Quot.sound, propext |
| `Verif.C37_write` | Quot.sound, propext |
| `Verif.C37_gone_for_good` | Classical.choice, Quot.sound, propext |
| `Verif.C37_tight` | Quot.sound, propext |
| `Verif.C38_fails_descendant` | propext |
| `Verif.C38_fails_same` | propext |
| `Verif.C38_fails_late_downgrade` | propext |
| `Verif.C38_partial` | Classical.choice, Quot.sound, propext |
| `Verif.C38_C39_partial` | Classical.choice, Quot.sound, propext |
| `Verif.C38_C39_no_race` | Classical.choice, Quot.sound, propext |
| `Verif.C38_C39_tight` | Quot.sound, propext |
| `Verif.C39_fails` | propext |
| `Verif.C39_double_drop` | propext |
| `Verif.C39_partial` | Classical.choice, Quot.sound, propext |
| `Verif.C40_fails` | propext |
| `Verif.C40_partial` | Classical.choice, Quot.sound, propext |
| `Verif.C41_retry_only_if_overtaken` | Classical.choice, Quot.sound, propext |
| `Verif.C41_same_call_reopens` | Classical.choice, Quot.sound, propext |
| `Verif.C41_gates_open` | Classical.choice, Quot.sound, propext |
| `Verif.C42_every_history` | Classical.choice, Quot.sound, propext |
| `Verif.C42_same_as_rc` | Classical.choice, Quot.sound, propext |
| `Verif.C42_only_as_rc` | Classical.choice, Quot.sound, propext |
| `Verif.C42_mild_of_no_getMut` | propext |
| `Verif.C42_mild_of_no_weak` | Quot.sound, propext |
| `Verif.C42_weak_below_ignored` | Classical.choice, Quot.sound, propext |
| `Verif.C42_is_threaded` | Classical.choice, Quot.sound, propext |
| `Verif.C44_comes_to_rest` | Classical.choice, Quot.sound, propext |
| `Verif.C44_no_deadlock` | Classical.choice, Quot.sound, propext |
| `Verif.C44_all_return` | Classical.choice, Quot.sound, propext |
| `Verif.C45_get_mut` | Classical.choice, Quot.sound, propext |
| `Verif.C45_into_mut` | Classical.choice, Quot.sound, propext |
| `Verif.C45_get_mut_weak` | Classical.choice, Quot.sound, propext |
| `Verif.C45_downgrade` | Quot.sound, propext |
| `Verif.C45_clone` | Quot.sound, propext |
| `Verif.C45_get_mut_handle` | Quot.sound, propext |
| `Verif.C46_safe` | Classical.choice, Quot.sound, propext |
| `Verif.C46_handles` | Classical.choice, Quot.sound, propext |
| `Verif.C46_read_stable` | Classical.choice, Quot.sound, propext |
| `Verif.C46_quiet` | Classical.choice, Quot.sound, propext |
| `Verif.C46_bad_count` | Classical.choice, Quot.sound, propext |
| `Verif.C47_walk` | Classical.choice, Quot.sound, propext |
| `Verif.C47_clone` | Classical.choice, Quot.sound, propext |
| `Verif.C47_part` | Classical.choice, Quot.sound, propext |
| `Verif.C48_alive_iff` | Classical.choice, Quot.sound, propext |
| `Verif.C48_unique` | Classical.choice, Quot.sound, propext |
| `Verif.C48_blocks` | Classical.choice, Quot.sound, propext |
| `Verif.C48_exclusive` | Classical.choice, Quot.sound, propext |
| `Verif.C48_drop` | Classical.choice, Quot.sound, propext |
| `Verif.C48_released` | Classical.choice, Quot.sound, propext |
| `Verif.C49_granted` | Classical.choice, Quot.sound, propext |
| `Verif.C49_gone` | Classical.choice, Quot.sound, propext |
| `Verif.C49_forever` | Classical.choice, Quot.sound, propext |
| `Verif.C49_refused` | Classical.choice, Quot.sound, propext |
| `Verif.Arc.C50_partial` | Classical.choice, Quot.sound, propext |
| `Verif.Arc.C50_noUpgrade_partial` | Classical.choice, Quot.sound, propext |
| `Verif.Arc.C50_noGetMut_partial` | Classical.choice, Quot.sound, propext |
| `Verif.Arc.C50_acquire_partial` | Classical.choice, Quot.sound, propext |
| `Verif.Arc.C50_acquire_noUpgrade_partial` | Classical.choice, Quot.sound, propext |
| `Verif.Arc.C50_fails_guard` | Quot.sound, propext |
| `Verif.Arc.C50_fails_count` | Quot.sound, propext |
| `Verif.Arc.C50_fails_upgrade` | Quot.sound, propext |
| `Verif.Arc.C51_ordered` | Classical.choice, Quot.sound, propext |
| `Verif.Arc.C51_no_race` | Classical.choice, Quot.sound, propext |
| `Verif.Arc.C51_published` | Classical.choice, Quot.sound, propext |
| `Verif.Arc.C51_destroyed` | Classical.choice, Quot.sound, propext |
| `Verif.Arc.VConf.acc_noted` | Quot.sound, propext |
| `Verif.Arc.VConf.changes_noted` | Classical.choice, Quot.sound, propext |
| `Verif.C52_panic_safe` | Classical.choice, Quot.sound, propext |
| `Verif.C52_panic_refines` | Classical.choice, Quot.sound, propext |
| `Verif.C52_panic_frame` | Classical.choice, Quot.sound, propext |
| `Verif.C52_memory_iff_kept` | Classical.choice, Quot.sound, propext |
| `Verif.C52_memory_returned` | Classical.choice, Quot.sound, propext |
| `Verif.C52_rest_dropped` | Classical.choice, Quot.sound, propext |
| `Verif.C52_outer_dropped` | Classical.choice, Quot.sound, propext |
| `Verif.C52_lost` | Classical.choice, Quot.sound, propext |
| `Verif.C53_safe` | Classical.choice, Quot.sound, propext |
| `Verif.C53_can_panic` | Classical.choice, Quot.sound, propext |
| `Verif.C53_shown_is_there` | Classical.choice, Quot.sound, propext |
| `Verif.C53_alive_iff_shown` | Classical.choice, Quot.sound, propext |
| `Verif.C53_panic` | Classical.choice, Quot.sound, propext |
| `Verif.C53_lost` | Classical.choice, Quot.sound, propext |
| `Verif.C53_rest_dropped` | Classical.choice, Quot.sound, propext |
| `Verif.C53_once` | Classical.choice, Quot.sound, propext |
| `Verif.C53_handles_keep` | Classical.choice, Quot.sound, propext |
| `Verif.C53_gone_for_good` | Classical.choice, Quot.sound, propext |
| `Verif.C53_exclusive` | Classical.choice, Quot.sound, propext |
| `Verif.C53_unique` | Classical.choice, Quot.sound, propext |
| `Verif.C53_released` | Classical.choice, Quot.sound, propext |
| `Verif.C53_gates` | Classical.choice, Quot.sound, propext |
| `Verif.C53_no_deadlock` | Classical.choice, Quot.sound, propext |
| `Verif.C53_all_return` | Classical.choice, Quot.sound, propext |
| `Verif.C54_where` | Classical.choice, Quot.sound, propext |
| `Verif.C54_drops` | Classical.choice, Quot.sound, propext |
| `Verif.C55_returns` | Classical.choice, Quot.sound, propext |
| `Verif.C55_delivered` | Quot.sound, propext |
| `Verif.C55_stays` | Classical.choice, Quot.sound, propext |
| `Verif.C56_drop` | Classical.choice, Quot.sound, propext |
| `Verif.C56_lost` | Classical.choice, Quot.sound, propext |
| `Verif.C56_covered` | Classical.choice, Quot.sound, propext |
| `Verif.C57_split_off` | Classical.choice, Quot.sound, propext |
| `Verif.C57_next` | Classical.choice, Quot.sound, propext |
| `Verif.C57_clone` | Classical.choice, Quot.sound, propext |
| `Verif.C57_rest` | Classical.choice, Quot.sound, propext |
| `Verif.C57_new` | Classical.choice, Quot.sound, propext |
| `Verif.C57_split_off_ends` | Classical.choice, Quot.sound, propext |
| `Verif.C57_next_ends` | Classical.choice, Quot.sound, propext |
| `Verif.C57_clone_ends` | Classical.choice, Quot.sound, propext |
| `Verif.C58_at_rest` | Classical.choice, Quot.sound, propext |
| `Verif.C58_only` | Classical.choice, Quot.sound, propext |
| `Verif.C58_into_mut_granted` | Classical.choice, Quot.sound, propext |
| `Verif.C58_get_mut_granted` | Classical.choice, Quot.sound, propext |
| `Verif.C59_reads` | Classical.choice, Quot.sound, propext |
| `Verif.C59_one` | Quot.sound, propext |
| `Verif.C59_constant` | Classical.choice, Quot.sound, propext |
| `Verif.C59_write` | Classical.choice, Quot.sound, propext |
| `Verif.C59_values` | Classical.choice, Quot.sound, propext |
| `Verif.C59_new` | Classical.choice, Quot.sound, propext |
| `Verif.C59_upgrade` | Classical.choice, Quot.sound, propext |
| `Verif.C59_would` | Quot.sound, propext |
| `Verif.C60_safe` | Classical.choice, Quot.sound, propext |
| `Verif.C60_load` | propext |
| `Verif.C60_latest` | Quot.sound, propext |
| `Verif.C60_covers` | propext |
| `Verif.C60_erase` | Quot.sound, propext |
| `Verif.C60_shown_is_there` | Classical.choice, Quot.sound, propext |
| `Verif.C60_alive_iff_shown` | Classical.choice, Quot.sound, propext |
| `Verif.C60_once` | Classical.choice, Quot.sound, propext |
| `Verif.C60_handles_keep` | Classical.choice, Quot.sound, propext |
| `Verif.C60_exclusive` | Classical.choice, Quot.sound, propext |
| `Verif.C60_unique` | Classical.choice, Quot.sound, propext |
| `Verif.C60_released` | Classical.choice, Quot.sound, propext |
| `Verif.C60_no_deadlock` | Classical.choice, Quot.sound, propext |
| `Verif.C61_partial` | Classical.choice, Quot.sound, propext |
| `Verif.C61_fails_into_mut` | Quot.sound, propext |
| `Verif.C61_fails_get_mut` | Quot.sound, propext |
| `Verif.C61_fails_dropped` | Quot.sound, propext |
| `Verif.C62_local` | Classical.choice, Quot.sound, propext |
| `Verif.C62_start` | Classical.choice, Quot.sound, propext |
| `Verif.C62_iterate` | Classical.choice, Quot.sound, propext |
| `Verif.C62_clone` | Classical.choice, Quot.sound, propext |
| `Verif.C62_map` | Classical.choice, Quot.sound, propext |
| `Verif.C62_parts` | Classical.choice, Quot.sound, propext |
| `Verif.C62_no_parts` | Classical.choice, Quot.sound, propext |
| `Verif.C63_safe` | Classical.choice, Quot.sound, propext |
| `Verif.C63_kept` | Classical.choice, Quot.sound, propext |
| `Verif.C63_once` | Classical.choice, Quot.sound, propext |
| `Verif.C63_rest` | Classical.choice, Quot.sound, propext |
| `Verif.C63_only_weak` | Classical.choice, Quot.sound, propext |
| `Verif.C63_gone` | Classical.choice, Quot.sound, propext |
| `Verif.C63_drained` | Classical.choice, Quot.sound, propext |
| `Verif.C63_same` | Classical.choice, Quot.sound, propext |
| `Verif.C64_returned` | Classical.choice, Quot.sound, propext |
| `Verif.C64_once` | Classical.choice, Quot.sound, propext |
| `Verif.C64_iff` | Classical.choice, Quot.sound, propext |
| `Verif.C64_safe` | Classical.choice, Quot.sound, propext |
| `Verif.C64_same` | Quot.sound, propext |
| `Verif.C65_granted` | Classical.choice, Quot.sound, propext |
| `Verif.C66_bounded` | Classical.choice, Quot.sound, propext |
| `Verif.C66_waiting_starves` | Quot.sound, propext |
| `Verif.C66_upgrade_starves` | Quot.sound, propext |
| `Verif.C67_traits` | none |
| `Verif.C67_rc` | none |
| `Verif.C67_home` | Classical.choice, Quot.sound, propext |
| `Verif.C67_leave` | Classical.choice, Quot.sound, propext |
| `Verif.C67_lost` | Classical.choice, Quot.sound, propext |
| `Verif.C68_fails` | Quot.sound, propext |
| `Verif.C68_one_thread_partial` | Classical.choice, Quot.sound, propext |
| `Verif.C69_blocks` | Classical.choice, Quot.sound, propext |
| `Verif.C69_once` | Classical.choice, Quot.sound, propext |
| `Verif.C69_guards` | Classical.choice, Quot.sound, propext |
| `Verif.C70_stack` | Classical.choice, Quot.sound, propext |
| `Verif.C70_usize` | Classical.choice, Quot.sound, propext |
| `Verif.C71_blocks` | Classical.choice, Quot.sound, propext |
| `Verif.C71_once` | Classical.choice, Quot.sound, propext |
| `Verif.C71_getMutGuards` | Classical.choice, Quot.sound, propext |
| `Verif.C71_intoMutGuards` | Classical.choice, Quot.sound, propext |
| `Verif.C72_stack` | Classical.choice, Quot.sound, propext |
| `Verif.C73_where` | Classical.choice, Quot.sound, propext |
| `Verif.C73_drops` | Classical.choice, Quot.sound, propext |
| `Verif.C73_parts` | Quot.sound, propext |
| `Verif.C74_guards` | Classical.choice, Quot.sound, propext |
| `Verif.C74_data` | Classical.choice, Quot.sound, propext |
| `Verif.C74_weak` | Classical.choice, Quot.sound, propext |
| `Verif.C75_data` | Classical.choice, Quot.sound, propext |
| `Verif.C75_img` | Classical.choice, Quot.sound, propext |
| `Verif.C75_gmg` | Classical.choice, Quot.sound, propext |
| `Verif.C75_alloc` | Classical.choice, Quot.sound, propext |
| `Verif.C76_data` | Classical.choice, Quot.sound, propext |
| `Verif.C76_alloc` | Classical.choice, Quot.sound, propext |
| `Verif.C76_guard` | Classical.choice, Quot.sound, propext |
| `Verif.C76_weak` | Classical.choice, Quot.sound, propext |
| `Verif.C77_exact` | Quot.sound, propext |
| `Verif.C77_who` | Quot.sound, propext |
| `Verif.C77_others` | Quot.sound, propext |
| `Verif.C77_unbounded` | Classical.choice, Quot.sound, propext |
| `Verif.C78_guards` | Classical.choice, Quot.sound, propext |
| `Verif.C78_guards_rest` | Classical.choice, Quot.sound, propext |
| `Verif.C78_husks` | Classical.choice, Quot.sound, propext |
| `Verif.C78_weak` | Classical.choice, Quot.sound, propext |
| `Verif.C79_cloneSide` | Classical.choice, Quot.sound, propext |
| `Verif.C79_downgrade` | Classical.choice, Quot.sound, propext |
| `Verif.C79_upgrade` | Classical.choice, Quot.sound, propext |
| `Verif.C79_alone` | Classical.choice, Quot.sound, propext |
| `Verif.C79_middle` | Classical.choice, Quot.sound, propext |
| `Verif.C79_free` | Classical.choice, Quot.sound, propext |
| `Verif.C79_waits` | Classical.choice, Quot.sound, propext |
| `Verif.C79_levels` | Classical.choice, Quot.sound, propext |
| `Verif.C80_unique` | Classical.choice, Quot.sound, propext |
| `Verif.C80_rejected` | Classical.choice, Quot.sound, propext |
| `Verif.C80_shared` | Classical.choice, Quot.sound, propext |
| `Verif.C80_panic` | Classical.choice, Quot.sound, propext |
| `Verif.C80_one_panic` | Classical.choice, Quot.sound, propext |
| `Verif.C80_shared_panic` | Classical.choice, Quot.sound, propext |
| `Verif.C80_shared_one_panic` | Classical.choice, Quot.sound, propext |
| `Verif.C80_arc` | Classical.choice, Quot.sound, propext |
| `Verif.C80_split_fails` | Quot.sound, propext |
