# Axioms of each manifest theorem (`#print axioms`)

| theorem | axioms |
|---|---|
| `Verif.C01_always_strictly_ascending` | propext, Classical.choice, Quot.sound |
| `Verif.C01_every_ascending_is_built` | propext, Quot.sound |
| `Verif.C02_collect_membership` | propext, Classical.choice, Quot.sound |
| `Verif.C02_collect_contains` | propext, Classical.choice, Quot.sound |
| `Verif.C03_sort_dedup_by_key` | propext, Classical.choice, Quot.sound |
| `Verif.C03_sort_dedup` | propext, Classical.choice, Quot.sound |
| `Verif.C04_contains` | propext, Classical.choice, Quot.sound |
| `Verif.C05_union` | propext, Classical.choice, Quot.sound |
| `Verif.C05_intersection` | propext, Classical.choice, Quot.sound |
| `Verif.C05_difference` | propext, Classical.choice, Quot.sound |
| `Verif.C05_symmetric_difference` | propext, Classical.choice, Quot.sound |
| `Verif.C06_assign_ops_agree` | propext, Classical.choice, Quot.sound |
| `Verif.C06_extend` | propext, Classical.choice, Quot.sound |
| `Verif.C07_relations` | propext, Classical.choice, Quot.sound |
| `Verif.C07_superset_iff_subset` | propext, Quot.sound |
| `Verif.C08_history_refines_sets` | propext, Classical.choice, Quot.sound |
| `Verif.C08_spec_deterministic` | propext |
| `Verif.C09_hash_tells_apart` | propext, Classical.choice, Quot.sound |
| `Verif.C09_hash_of_slice` | propext |
| `Verif.C09_eq_iff_same_members` | propext, Classical.choice, Quot.sound |
| `Verif.C09_hash` | propext, Classical.choice, Quot.sound |
| `Verif.C09_cmp_total_order` | propext, Classical.choice, Quot.sound |
| `Verif.C10_commutative` | propext, Classical.choice, Quot.sound |
| `Verif.C10_difference_laws` | propext, Classical.choice, Quot.sound |
| `Verif.C10_associative` | propext, Classical.choice, Quot.sound |
| `Verif.C10_distributive` | propext, Classical.choice, Quot.sound |
| `Verif.C10_idempotent_empty` | propext, Classical.choice, Quot.sound |
| `Verif.C11_named_methods_partial` | propext, Classical.choice, Quot.sound |
| `Verif.C11_union_with_panics` | propext, Classical.choice, Quot.sound |
| `Verif.C11_xor_with_is_intersection` | propext, Classical.choice, Quot.sound |
| `Verif.C11_counterexample` | propext, Classical.choice, Quot.sound |
| `Verif.C12_set_new_vector` | propext, Quot.sound |
| `Verif.C12_set_in_place` | propext, Quot.sound |
| `Verif.C12_set_bool` | propext, Quot.sound |
| `Verif.C12_plans_legal` | propext, Classical.choice, Quot.sound |
| `Verif.C12_driver_runs_legal_schedule` | propext, Classical.choice, Quot.sound |
| `Verif.C12_map_in_place` | propext, Quot.sound |
| `Verif.C12_map_new_vector` | propext, Quot.sound |
| `Verif.C13_map_retain` | propext, Classical.choice, Quot.sound |
| `Verif.C13_retain_panic_permutation` | propext, Quot.sound |
| `Verif.C13_set_retain` | propext, Classical.choice, Quot.sound |
| `Verif.C13_set_retain_pure` | propext, Quot.sound |
| `Verif.C14_representatives` | propext, Classical.choice, Quot.sound |
| `Verif.C14_insert_remove` | propext, Classical.choice, Quot.sound |
| `Verif.C14_collect_keeps_first` | propext, Classical.choice, Quot.sound |
| `Verif.C15_roundtrip` | propext, Classical.choice, Quot.sound |
| `Verif.C15_any_sequence` | propext, Classical.choice, Quot.sound |
| `Verif.C16_map_check_bytes` | propext, Classical.choice, Quot.sound |
| `Verif.C16_map_invalid_entry` | propext, Classical.choice, Quot.sound |
| `Verif.C16_map_archive_roundtrip` | propext, Classical.choice, Quot.sound |
| `Verif.C16_set_check_bytes` | propext, Classical.choice, Quot.sound |
| `Verif.C16_set_invalid_element` | propext, Classical.choice, Quot.sound |
| `Verif.C16_set_archive_roundtrip` | propext, Classical.choice, Quot.sound |
| `Verif.C17_bounded_buffer` | propext, Classical.choice, Quot.sound |
| `Verif.C17_bound_attained` | propext, Classical.choice, Quot.sound |
| `Verif.C18_keys_strictly_ascending` | propext, Classical.choice, Quot.sound |
| `Verif.C18_every_ascending_is_built` | propext, Quot.sound |
| `Verif.C19_collect_last_wins` | propext, Classical.choice, Quot.sound |
| `Verif.C19_collect_none` | propext, Classical.choice, Quot.sound |
| `Verif.C20_history_refines_maps` | propext, Classical.choice, Quot.sound |
| `Verif.C20_insert` | propext, Classical.choice, Quot.sound |
| `Verif.C20_get` | propext, Classical.choice, Quot.sound |
| `Verif.C21_outer_join` | propext, Classical.choice, Quot.sound |
| `Verif.C21_outer_join_get` | propext, Classical.choice, Quot.sound |
| `Verif.C22_left_join` | propext, Classical.choice, Quot.sound |
| `Verif.C22_left_join_get` | propext, Classical.choice, Quot.sound |
| `Verif.C23_right_join` | propext, Classical.choice, Quot.sound |
| `Verif.C23_right_join_get` | propext, Classical.choice, Quot.sound |
| `Verif.C24_inner_join` | propext, Classical.choice, Quot.sound |
| `Verif.C24_inner_join_get` | propext, Classical.choice, Quot.sound |
| `Verif.C25_in_place_joins_agree` | propext, Classical.choice, Quot.sound |
| `Verif.C26_combine_with` | propext, Classical.choice, Quot.sound |
| `Verif.C26_merge_with_extend` | propext, Classical.choice, Quot.sound |
| `Verif.C26_combine_entries` | propext, Classical.choice, Quot.sound |
| `Verif.C27_map_values` | propext, Quot.sound |
| `Verif.C27_into_set` | propext, Classical.choice, Quot.sound |
| `Verif.C27_from_btree` | propext, Classical.choice, Quot.sound |
| `Verif.C28_roundtrip` | propext, Classical.choice, Quot.sound |
| `Verif.C28_any_sequence` | propext, Classical.choice, Quot.sound |
| `Verif.C28_differs_from_collect` | propext, Classical.choice, Quot.sound |
| `Verif.C29_outer_join_with_panic` | propext, Classical.choice, Quot.sound |
| `Verif.C29_other_joins_panic` | propext, Classical.choice, Quot.sound |
| `Verif.C29_interrupted_anywhere` | propext, Classical.choice, Quot.sound |
| `Verif.C29_retain_panic_unsorted` | propext, Quot.sound |
| `Verif.C30_pointwise` | propext, Classical.choice, Quot.sound |
| `Verif.C30_basic` | propext, Classical.choice, Quot.sound |
| `Verif.C30_empty_all` | propext, Classical.choice, Quot.sound |
| `Verif.C31_assign_ops_agree` | propext, Classical.choice, Quot.sound |
| `Verif.C32_subset_disjoint_partial` | propext, Classical.choice, Quot.sound |
| `Verif.C32_sound_partial` | propext, Classical.choice, Quot.sound |
| `Verif.C32_superset_counterexample` | propext, Classical.choice, Quot.sound |
| `Verif.C32_superset_false_positive` | propext, Classical.choice, Quot.sound |
| `Verif.C32_finite_counterexample` | propext, Classical.choice, Quot.sound |
| `Verif.C33_hash_tells_apart` | propext, Classical.choice, Quot.sound |
| `Verif.C33_eq_extensional` | propext, Classical.choice, Quot.sound |
| `Verif.C33_eq_sound_hash` | propext, Classical.choice, Quot.sound |
| `Verif.C33_empty_all` | propext, Classical.choice, Quot.sound |
| `Verif.C33_serde_roundtrip` | propext, Classical.choice, Quot.sound |
| `Verif.C33_deserialize` | propext, Classical.choice, Quot.sound |
| `Verif.C34_insert_remove` | propext, Classical.choice, Quot.sound |
| `Verif.C34_history` | propext, Classical.choice, Quot.sound |
| `Verif.C35_combine_ref` | propext, Classical.choice, Quot.sound |
| `Verif.C35_map_values` | propext, Classical.choice, Quot.sound |
| `Verif.C35_operators` | propext, Classical.choice, Quot.sound |
| `Verif.C35_new_constant` | propext, Classical.choice, Quot.sound |
| `Verif.C36_no_default_stored` | propext, Classical.choice, Quot.sound |
| `Verif.C37_eq_extensional_partial` | propext, Classical.choice, Quot.sound |
| `Verif.C37_hash` | propext, Classical.choice, Quot.sound |
| `Verif.C37_cmp_extensional` | propext, Classical.choice, Quot.sound |
| `Verif.C37_counterexample` | propext, Quot.sound |
| `Verif.C37_serde_roundtrip` | propext, Classical.choice, Quot.sound |
| `Verif.C37_deserialize` | propext, Classical.choice, Quot.sound |
| `Verif.C38_lattice` | propext, Classical.choice, Quot.sound |
| `Verif.C38_neutral` | propext, Classical.choice, Quot.sound |
| `Verif.C38_is_const` | propext, Classical.choice, Quot.sound |
| `Verif.BTreeMap.C39_outer_join` | propext, Quot.sound |
| `Verif.BTreeMap.C39_left_join` | propext, Quot.sound |
| `Verif.BTreeMap.C39_right_join` | propext, Quot.sound |
| `Verif.BTreeMap.C39_inner_join` | propext, Quot.sound |
| `Verif.BTreeMap.C39_agrees_with_VecMap` | propext, Classical.choice, Quot.sound |
| `Verif.BTreeMap.C40_inner_join_with` | propext, Quot.sound |
| `Verif.BTreeMap.C40_left_join_with` | propext, Quot.sound |
| `Verif.BTreeMap.C40_outer_join_with` | propext, Classical.choice, Quot.sound |
| `Verif.BTreeMap.C40_right_join_with_partial` | propext, Quot.sound |
| `Verif.BTreeMap.C40_right_join_with_counterexample` | none |
| `Verif.Tree.C41_get` | propext, Classical.choice, Quot.sound |
| `Verif.Tree.C41_contains_key` | propext, Classical.choice, Quot.sound |
| `Verif.Tree.C41_functional` | propext, Classical.choice, Quot.sound |
| `Verif.Tree.C41_iter_values` | propext, Classical.choice, Quot.sound |
| `Verif.Tree.C41_iter_iff_get` | propext, Classical.choice, Quot.sound |
| `Verif.Tree.C42_insert` | propext, Classical.choice, Quot.sound |
| `Verif.Tree.C42_history` | propext, Classical.choice, Quot.sound |
| `Verif.Tree.C42_collect` | propext, Classical.choice, Quot.sound |
| `Verif.Tree.C43_outer_combine` | propext, Classical.choice, Quot.sound |
| `Verif.Tree.C43_outer_combine_with` | propext, Classical.choice, Quot.sound |
| `Verif.Tree.C43_union` | propext, Classical.choice, Quot.sound |
| `Verif.Tree.C44_inner_combine` | propext, Classical.choice, Quot.sound |
| `Verif.Tree.C44_inner_combine_with` | propext, Classical.choice, Quot.sound |
| `Verif.Tree.C44_intersection` | propext, Classical.choice, Quot.sound |
| `Verif.Tree.C45_left_combine_with` | propext, Classical.choice, Quot.sound |
| `Verif.Tree.C45_difference` | propext, Classical.choice, Quot.sound |
| `Verif.Tree.C45_left_combine` | propext, Classical.choice, Quot.sound |
| `Verif.Tree.C45_left_combine_not_everywhere` | propext, Classical.choice, Quot.sound |
| `Verif.Tree.C46_algebra` | propext, Classical.choice, Quot.sound |
| `Verif.Tree.C46_combine` | propext, Classical.choice, Quot.sound |
| `Verif.Tree.C47_reachable_canonical` | propext, Classical.choice, Quot.sound |
| `Verif.Tree.C47_canonical_reachable` | propext, Classical.choice, Quot.sound |
| `Verif.Tree.C47_eq` | propext, Classical.choice, Quot.sound |
| `Verif.Tree.C47_ext` | propext, Classical.choice, Quot.sound |
| `Verif.Tree.C47_is_empty` | propext, Classical.choice, Quot.sound |
| `Verif.Tree.C48_is_subset` | propext, Classical.choice, Quot.sound |
| `Verif.Tree.C48_is_subset_sound` | propext, Classical.choice, Quot.sound |
| `Verif.Tree.C48_is_superset` | propext, Classical.choice, Quot.sound |
| `Verif.Tree.C48_intersects_is_disjoint` | propext, Classical.choice, Quot.sound |
| `Verif.Tree.C49_filter_prefix` | propext, Classical.choice, Quot.sound |
| `Verif.Tree.C49_scan_prefix` | propext, Classical.choice, Quot.sound |
| `Verif.Tree.C49_prepend` | propext, Classical.choice, Quot.sound |
| `Verif.Tree.C50_remove_prefix_with` | propext, Classical.choice, Quot.sound |
| `Verif.Tree.C50_retain_prefix_with` | propext, Classical.choice, Quot.sound |
| `Verif.Tree.C51_no_panic` | propext, Classical.choice, Quot.sound |
| `Verif.Tree.C52_check_bytes` | propext, Classical.choice, Quot.sound |
| `Verif.Tree.C52_accepted` | propext, Classical.choice, Quot.sound |
| `Verif.Tree.C52_roundtrip` | propext, Classical.choice, Quot.sound |
| `Verif.Tree.C52_not_canonical` | propext, Classical.choice, Quot.sound |
| `Verif.Shared.C53_refines_values` | propext, Classical.choice, Quot.sound |
| `Verif.Shared.C53_meaning_unique` | none |
| `Verif.Shared.C53_snapshot_isolation` | propext, Classical.choice, Quot.sound |
| `Verif.Shared.C53_clone` | propext, Classical.choice, Quot.sound |
| `Verif.Shared.C53_frame` | propext, Classical.choice, Quot.sound |
| `Verif.Shared.C54_lazy_unobservable` | propext, Classical.choice, Quot.sound |
| `Verif.Shared.C54_lazy_eq_eager` | propext, Classical.choice, Quot.sound |
| `Verif.Shared.C54_reads_change_nothing` | propext, Classical.choice, Quot.sound |
| `Verif.LazyCell.C55_sequential_meaning` | propext, Quot.sound |
| `Verif.LazyCell.C55_initialised_once` | propext, Quot.sound |
| `Verif.LazyCell.C55_no_panic` | propext, Quot.sound |
| `Verif.LazyCell.C55_references_stable` | propext, Quot.sound |
| `Verif.LazyCell.C55_no_data_race` | propext, Quot.sound |
| `Verif.LazyCell.C55_no_deadlock` | propext, Classical.choice, Quot.sound |
| `Verif.LazyCell.C55_schedule_independent` | propext, Classical.choice, Quot.sound |
| `Verif.Shared.C56_history` | propext, Classical.choice, Quot.sound |
| `Verif.Shared.C56_vacuum_crash` | propext, Classical.choice, Quot.sound |
| `Verif.Shared.C56_flush_crash` | propext, Classical.choice, Quot.sound |
| `Verif.Shared.C56_registry_sound` | propext, Classical.choice, Quot.sound |
| `Verif.Shared.C56_no_leak` | propext, Classical.choice, Quot.sound |
| `Verif.Shared.C56_flush_incremental` | propext, Classical.choice, Quot.sound |
| `Verif.Shared.C56_flush_changed` | propext, Classical.choice, Quot.sound |
| `Verif.Shared.C56_load_shares` | propext, Classical.choice, Quot.sound |
| `Verif.Shared.C56_flush_twice` | propext, Classical.choice, Quot.sound |
| `Verif.Shared.C56_vacuum_minimal` | propext, Classical.choice, Quot.sound |
| `Verif.C57_set_elements` | propext, Classical.choice, Quot.sound |
| `Verif.C57_set_merge` | propext, Classical.choice, Quot.sound |
| `Verif.C57_converters` | propext |
| `Verif.C57_map_slots` | propext, Quot.sound |
| `Verif.C57_map_merge` | propext, Quot.sound |
| `Verif.C57_map_keys` | propext, Classical.choice, Quot.sound |
| `Verif.C58_hash_tells_apart` | propext, Classical.choice, Quot.sound |
| `Verif.C58_hash_of_slice` | propext |
| `Verif.C58_eq_iff_same_bindings` | propext, Classical.choice, Quot.sound |
| `Verif.C58_hash` | propext, Classical.choice, Quot.sound |
| `Verif.C58_cmp_total_order` | propext, Classical.choice, Quot.sound |
| `Verif.Shared.C59_counts_exact` | propext, Classical.choice, Quot.sound |
| `Verif.Shared.C59_no_leak` | propext, Classical.choice, Quot.sound |
| `Verif.C60_set_lookup` | propext, Classical.choice, Quot.sound |
| `Verif.C60_map_lookup` | propext, Classical.choice, Quot.sound |
| `Verif.C61_collect_work` | propext, Classical.choice, Quot.sound |
| `Verif.C61_collect_total` | propext, Classical.choice, Quot.sound |
| `Verif.C61_collect_sorted_input` | propext, Quot.sound |
| `Verif.C62_merge_comparisons` | propext, Classical.choice, Quot.sound |
| `Verif.C62_separated_sets` | propext, Classical.choice, Quot.sound |
| `Verif.C62_optimal` | propext, Classical.choice, Quot.sound |
| `Verif.C62_within_constant` | propext, Classical.choice, Quot.sound |
| `Verif.C63_vecset_keeps_last` | propext, Classical.choice, Quot.sound |
| `Verif.C63_vecset_eq_collect` | propext, Classical.choice, Quot.sound |
| `Verif.C63_vecmap_is_collect` | propext, Classical.choice, Quot.sound |
| `Verif.C63_vecmap_last_wins` | propext, Classical.choice, Quot.sound |
| `Verif.IterKey.C64_keys_are_values` | propext, Classical.choice, Quot.sound |
| `Verif.IterKey.C64_no_leak` | propext, Classical.choice, Quot.sound |
| `Verif.IterKey.C64_allocations` | propext, Classical.choice, Quot.sound |
| `Verif.IterKey.C64_no_copy_without_keys` | propext, Classical.choice, Quot.sound |
| `Verif.IterKey.C64_collected_keys` | propext, Classical.choice, Quot.sound |
| `Verif.IntoIter.C65_alive_partial` | propext, Quot.sound |
| `Verif.IntoIter.C65_enumerates_partial` | propext, Classical.choice, Quot.sound |
| `Verif.IntoIter.C65_dangling_after_drop` | propext |
| `Verif.IntoIter.C65_counterexample` | propext, Classical.choice, Quot.sound |
| `Verif.Iterators.C66_set_iter` | propext, Classical.choice, Quot.sound |
| `Verif.Iterators.C66_map_iter` | propext, Classical.choice, Quot.sound |
| `Verif.Iterators.C66_resume` | propext, Classical.choice, Quot.sound |
| `Verif.C67_multimap_collect` | propext, Classical.choice, Quot.sound |
| `Verif.C67_multimap_combine` | propext, Classical.choice, Quot.sound |
| `Verif.C67_bimultimap_inverse` | propext, Classical.choice, Quot.sound |
| `Verif.C67_bimultimap_ops` | propext, Classical.choice, Quot.sound |
| `Verif.Store.C68_mem_contract` | propext, Quot.sound |
| `Verif.Store.C68_mem_files` | propext, Quot.sound |
| `Verif.Store.C68_file_faults` | propext, Quot.sound |
| `Verif.Store.C68_file_history` | propext, Quot.sound |
| `Verif.Store.C68_file_contract_partial` | propext, Classical.choice, Quot.sound |
| `Verif.Store.C68_file_mv_missing` | propext |
| `Verif.Store.C68_frame` | propext |
| `Verif.Store.C68_mem_linearizable` | propext, Classical.choice, Quot.sound |
| `Verif.Store.C68_mem_no_deadlock` | propext, Classical.choice, Quot.sound |
| `Verif.Store.C68_db_files` | propext, Classical.choice, Quot.sound |
| `Verif.Watch.C69_delivery` | propext, Classical.choice, Quot.sound |
| `Verif.Watch.C69_nothing_before` | propext, Quot.sound |
| `Verif.Watch.C69_unsubscribe` | propext, Quot.sound |
| `Verif.Watch.C69_batches` | propext, Classical.choice, Quot.sound |
| `Verif.Watch.C69_not_incremental` | propext, Classical.choice, Quot.sound |
| `Verif.Tree.C70_outer` | propext, Classical.choice, Quot.sound |
| `Verif.Tree.C70_inner` | propext, Classical.choice, Quot.sound |
| `Verif.Tree.C70_left` | propext, Classical.choice, Quot.sound |
| `Verif.Tree.C70_panics_iff` | propext, Classical.choice, Quot.sound |
| `Verif.Tree.C70_no_invention` | propext, Classical.choice, Quot.sound |
| `Verif.Tree.C70_counterexample` | propext, Classical.choice, Quot.sound |
| `Verif.Shared.C71_independent` | propext, Classical.choice, Quot.sound |
| `Verif.Shared.C71_same_name_counterexample` | propext, Classical.choice, Quot.sound |
| `Verif.Shared.C71_tmp_counterexample` | propext, Classical.choice, Quot.sound |
| `Verif.Shared.C72_late_error` | propext, Classical.choice, Quot.sound |
| `Verif.Shared.C72_flush_counterexample` | propext, Classical.choice, Quot.sound |
| `Verif.Shared.C73_history` | propext, Classical.choice, Quot.sound |
| `Verif.Shared.C73_flavours_agree` | propext, Classical.choice, Quot.sound |
| `Verif.Shared.C73_canonical` | propext, Classical.choice, Quot.sound |
| `Verif.Shared.C73_no_leak` | propext, Classical.choice, Quot.sound |
| `Verif.Shared.C73_get` | propext, Classical.choice, Quot.sound |
| `Verif.Shared.C73_iter` | propext, Classical.choice, Quot.sound |
| `Verif.Shared.C73_compare` | propext, Classical.choice, Quot.sound |
| `Verif.Shared.C73_left_combine` | propext, Classical.choice, Quot.sound |
| `Verif.Threads.C74_linearizable` | propext, Classical.choice, Quot.sound |
| `Verif.Threads.C74_program_order` | propext, Classical.choice, Quot.sound |
| `Verif.Threads.C74_no_fault` | propext, Classical.choice, Quot.sound |
| `Verif.Threads.C74_exclusive` | propext, Classical.choice, Quot.sound |
| `Verif.Threads.C74_counts_exact` | propext, Classical.choice, Quot.sound |
| `Verif.Threads.C74_no_leak` | propext, Classical.choice, Quot.sound |
| `Verif.Threads.C74_wait_free` | propext, Classical.choice, Quot.sound |
| `Verif.Hostile.C75_contains` | propext, Quot.sound |
| `Verif.Hostile.C75_insert` | propext, Quot.sound |
| `Verif.Hostile.C75_remove` | propext, Quot.sound |
| `Verif.Hostile.C75_map_get` | propext, Quot.sound |
| `Verif.Hostile.C75_map_insert` | propext, Quot.sound |
| `Verif.Hostile.C75_map_get_mut` | propext, Quot.sound |
| `Verif.Hostile.C75_collect` | propext, Classical.choice, Quot.sound |
| `Verif.Hostile.C75_set_algebra` | propext, Classical.choice, Quot.sound |
| `Verif.Hostile.C75_relations` | propext, Quot.sound |
| `Verif.Hostile.C75_set_in_place` | propext, Classical.choice, Quot.sound |
| `Verif.Hostile.C75_in_place_agrees` | propext, Quot.sound |
| `Verif.Hostile.C75_map_joins` | propext, Classical.choice, Quot.sound |
| `Verif.Hostile.C75_map_joins_in_place` | propext, Quot.sound |
| `Verif.Hostile.C75_panicking_order_elements` | propext, Quot.sound |
| `Verif.Hostile.C75_panicking_order_collect` | propext, Classical.choice, Quot.sound |
| `Verif.Hostile.C75_panicking_order_results` | propext, Classical.choice, Quot.sound |
| `Verif.Hostile.C75_panicking_order_in_place` | propext, Classical.choice, Quot.sound |
| `Verif.Hostile.C75_panicking_order_joins` | propext, Classical.choice, Quot.sound |
| `Verif.Hostile.C75_panicking_order_entries` | propext, Quot.sound |
| `Verif.Hostile.C75_panicking_order_history` | propext, Classical.choice, Quot.sound |
| `Verif.Hostile.C75_extend` | propext, Classical.choice, Quot.sound |
| `Verif.Hostile.C75_panicking_order_extend` | propext, Classical.choice, Quot.sound |
| `Verif.Tree.C76_shallow_iff_short_keys` | propext, Classical.choice, Quot.sound |
| `Verif.Tree.C76_combine_depth` | propext, Classical.choice, Quot.sound |
| `Verif.Tree.C76_key_depth` | propext, Classical.choice, Quot.sound |
| `Verif.Tree.C76_nesting` | propext, Classical.choice, Quot.sound |
| `Verif.Tree.C77_equality_tests` | propext, Classical.choice, Quot.sound |
| `Verif.Tree.C77_comparisons` | propext, Classical.choice, Quot.sound |
| `Verif.Tree.C77_alphabet` | propext, Classical.choice, Quot.sound |
| `Verif.Tree.C78_space` | propext, Classical.choice, Quot.sound |
| `Verif.Tree.C78_iteration` | propext, Classical.choice, Quot.sound |
| `Verif.Archive.C79_terminates` | propext, Quot.sound |
| `Verif.Archive.C79_accepts_only_trees` | propext, Classical.choice, Quot.sound |
| `Verif.Archive.C79_reading` | propext, Classical.choice, Quot.sound |
| `Verif.Archive.C79_no_undefined_behaviour_partial` | propext, Classical.choice, Quot.sound |
| `Verif.Archive.C79_written` | propext, Classical.choice, Quot.sound |
| `Verif.Archive.C79_written_apart` | propext, Classical.choice, Quot.sound |
| `Verif.Archive.C79_sets_and_maps` | propext, Classical.choice, Quot.sound |
| `Verif.Archive.C79_hostile_counterexample` | propext, Classical.choice, Quot.sound |
| `Verif.C80_outer_join` | propext, Classical.choice, Quot.sound |
| `Verif.C80_left_join` | propext, Classical.choice, Quot.sound |
| `Verif.C80_right_join` | propext, Classical.choice, Quot.sound |
| `Verif.C80_inner_join` | propext, Classical.choice, Quot.sound |
| `Verif.C80_outer_join_with` | propext, Classical.choice, Quot.sound |
| `Verif.C80_left_join_with` | propext, Classical.choice, Quot.sound |
| `Verif.C80_right_join_with` | propext, Classical.choice, Quot.sound |
| `Verif.C80_inner_join_with` | propext, Classical.choice, Quot.sound |
| `Verif.C80_order_unique` | propext |
| `Verif.C80_combine_map_values` | propext, Classical.choice, Quot.sound |
| `Verif.C80_total_combine_ref` | propext, Classical.choice, Quot.sound |
| `Verif.C80_total_map_values` | propext |
| `Verif.C80_any_schedule` | propext, Quot.sound |
| `Verif.C80_pure_closures` | propext, Quot.sound |
| `Verif.C80_results_ascending` | propext, Quot.sound |
| `Verif.BTreeMap.C81_outer_join` | propext, Quot.sound |
| `Verif.BTreeMap.C81_left_join` | propext, Quot.sound |
| `Verif.BTreeMap.C81_right_join` | propext, Quot.sound |
| `Verif.BTreeMap.C81_inner_join` | propext, Quot.sound |
| `Verif.BTreeMap.C81_left_join_with` | propext, Classical.choice, Quot.sound |
| `Verif.BTreeMap.C81_inner_join_with` | propext, Classical.choice, Quot.sound |
| `Verif.BTreeMap.C81_right_join_with` | propext, Classical.choice, Quot.sound |
| `Verif.BTreeMap.C81_outer_join_with` | propext, Classical.choice, Quot.sound |
| `Verif.BTreeMap.C81_pure_closures` | propext, Quot.sound |
| `Verif.Tree.C82_outer_combine_with` | propext, Classical.choice, Quot.sound |
| `Verif.Tree.C82_inner_combine_with` | propext, Classical.choice, Quot.sound |
| `Verif.Tree.C82_left_combine_with` | propext, Classical.choice, Quot.sound |
| `Verif.Tree.C83_outer_combine` | propext, Classical.choice, Quot.sound |
| `Verif.Tree.C83_inner_combine` | propext, Classical.choice, Quot.sound |
| `Verif.Tree.C83_left_combine` | propext, Classical.choice, Quot.sound |
| `Verif.Tree.C84_remove_prefix_with` | propext, Classical.choice, Quot.sound |
| `Verif.Tree.C84_retain_prefix_with` | propext, Classical.choice, Quot.sound |
| `Verif.Tree.C84_stateless` | propext, Classical.choice, Quot.sound |
| `Verif.Tree.C85_outer` | propext, Classical.choice, Quot.sound |
| `Verif.Tree.C85_inner` | propext, Classical.choice, Quot.sound |
| `Verif.Tree.C85_left` | propext, Classical.choice, Quot.sound |
| `Verif.Tree.C85_prefix` | propext, Classical.choice, Quot.sound |
| `Verif.Tree.C85_insert` | propext, Classical.choice, Quot.sound |
| `Verif.Tree.C85_relations` | propext, Classical.choice, Quot.sound |
| `Verif.Tree.C85_relations_scan` | propext, Quot.sound |
| `Verif.Hostile.Radix.C86_outer_combine_with` | propext, Classical.choice, Quot.sound |
| `Verif.Hostile.Radix.C86_insert` | propext, Classical.choice, Quot.sound |
| `Verif.Hostile.Radix.C86_inner_combine_with` | propext, Classical.choice, Quot.sound |
| `Verif.Hostile.Radix.C86_left_combine_with` | propext, Classical.choice, Quot.sound |
| `Verif.Hostile.Radix.C86_remove_prefix_with` | propext, Classical.choice, Quot.sound |
| `Verif.Hostile.Radix.C86_retain_prefix_with` | propext, Classical.choice, Quot.sound |
| `Verif.Hostile.Radix.C86_combine` | propext, Classical.choice, Quot.sound |
| `Verif.Hostile.Radix.C86_combine_keeping` | propext, Classical.choice, Quot.sound |
| `Verif.Hostile.Radix.C86_questions` | propext, Classical.choice, Quot.sound |
| `Verif.Hostile.Radix.C86_consistent_outer_combine_with` | propext, Classical.choice, Quot.sound |
| `Verif.Hostile.Radix.C86_consistent_insert` | propext, Classical.choice, Quot.sound |
| `Verif.Hostile.Radix.C86_consistent_inner_combine_with` | propext, Classical.choice, Quot.sound |
| `Verif.Hostile.Radix.C86_consistent_left_combine_with` | propext, Classical.choice, Quot.sound |
| `Verif.Hostile.Radix.C86_consistent_prefix_with` | propext, Classical.choice, Quot.sound |
| `Verif.Hostile.Radix.C86_consistent_combine` | propext, Classical.choice, Quot.sound |
| `Verif.Hostile.Radix.C86_consistent_combine_keeping` | propext, Classical.choice, Quot.sound |
| `Verif.Hostile.Radix.C86_questions_panics` | propext, Classical.choice, Quot.sound |
| `Verif.Hostile.Radix.C86_consistent_history` | propext, Classical.choice, Quot.sound |
| `Verif.Hostile.Radix.C86_finding_bad_tree` | propext, Quot.sound |
| `Verif.Hostile.Radix.C86_finding_bad_tree_panics` | propext, Quot.sound |
| `Verif.Hostile.Radix.C86_ordered_outer_combine_with` | propext, Classical.choice, Quot.sound |
| `Verif.Hostile.Radix.C86_ordered_insert` | propext, Classical.choice, Quot.sound |
| `Verif.Hostile.Radix.C86_ordered_inner_combine_with` | propext, Classical.choice, Quot.sound |
| `Verif.Hostile.Radix.C86_ordered_left_combine_with` | propext, Classical.choice, Quot.sound |
| `Verif.Hostile.Radix.C86_ordered_remove_prefix_with` | propext, Classical.choice, Quot.sound |
| `Verif.Hostile.Radix.C86_ordered_retain_prefix_with` | propext, Classical.choice, Quot.sound |
| `Verif.Hostile.Radix.C86_ordered_combine` | propext, Quot.sound |
| `Verif.Hostile.Radix.C86_ordered_questions` | propext, Classical.choice, Quot.sound |
| `Verif.Hostile.Radix.C86_finding_unsorted` | propext, Quot.sound |
| `Verif.ArcArchive.C87_terminates` | propext, Quot.sound |
| `Verif.ArcArchive.C87_accepted_safe` | propext, Quot.sound |
| `Verif.ArcArchive.C87_accepted_acyclic` | propext, Classical.choice, Quot.sound |
| `Verif.ArcArchive.C87_no_undefined_behaviour_partial` | propext, Quot.sound |
| `Verif.ArcArchive.C87_reading` | propext, Classical.choice, Quot.sound |
| `Verif.ArcArchive.C87_loading` | propext, Classical.choice, Quot.sound |
| `Verif.ArcArchive.C87_written` | propext, Classical.choice, Quot.sound |
| `Verif.ArcArchive.C87_written_many` | propext, Classical.choice, Quot.sound |
| `Verif.ArcArchive.C87_written_apart` | propext, Classical.choice, Quot.sound |
| `Verif.ArcArchive.C87_written_once` | propext, Quot.sound |
| `Verif.ArcArchive.C87_finding_second_tree_rejected` | propext, Quot.sound |
| `Verif.ArcArchive.C87_reopened` | propext, Classical.choice, Quot.sound |
| `Verif.ArcArchive.C87_hostile_counterexample` | propext, Quot.sound |
| `Verif.ArcArchive.C87_finding_cycle` | propext, Classical.choice, Quot.sound |
| `Verif.ArcArchive.C87_finding_exponential` | propext, Classical.choice, Quot.sound |
| `Verif.Hostile.C88_contains` | propext, Quot.sound |
| `Verif.Hostile.C88_insert` | propext, Quot.sound |
| `Verif.Hostile.C88_remove` | propext, Quot.sound |
| `Verif.Hostile.C88_relations` | propext, Quot.sound |
| `Verif.Hostile.C88_operators` | propext, Classical.choice, Quot.sound |
| `Verif.Hostile.C88_assigning` | propext, Classical.choice, Quot.sound |
| `Verif.Hostile.C88_panicking_order_elements` | propext, Quot.sound |
| `Verif.Hostile.C88_panicking_order_relations` | propext, Classical.choice, Quot.sound |
| `Verif.Hostile.C88_panicking_order_operators` | propext, Classical.choice, Quot.sound |
| `Verif.Hostile.C88_panicking_order_assigning` | propext, Classical.choice, Quot.sound |
| `Verif.Hostile.C88_panicking_order_history` | propext, Classical.choice, Quot.sound |
| `Verif.Hostile.C88_map_index` | propext, Quot.sound |
| `Verif.Hostile.C88_map_combine` | propext, Classical.choice, Quot.sound |
| `Verif.Hostile.C88_panicking_order_maps` | propext, Classical.choice, Quot.sound |
| `Verif.Hostile.C88_caught_panic_inverts` | propext, Quot.sound |
| `Verif.Tree.C89_outer_any_clone` | propext, Classical.choice, Quot.sound |
| `Verif.Tree.C89_inner_any_clone` | propext, Classical.choice, Quot.sound |
| `Verif.Tree.C89_left_any_clone` | propext, Classical.choice, Quot.sound |
| `Verif.Tree.C89_remove_prefix_any_clone` | propext, Classical.choice, Quot.sound |
| `Verif.Tree.C89_retain_prefix_any_clone` | propext, Classical.choice, Quot.sound |
| `Verif.Tree.C89_insert_any_clone` | propext, Classical.choice, Quot.sound |
| `Verif.Tree.C89_outer_honest_clone` | propext, Classical.choice, Quot.sound |
| `Verif.Tree.C89_inner_honest_clone` | propext, Classical.choice, Quot.sound |
| `Verif.Tree.C89_left_honest_clone` | propext, Classical.choice, Quot.sound |
| `Verif.Tree.C89_remove_prefix_honest_clone` | propext, Classical.choice, Quot.sound |
| `Verif.Tree.C89_retain_prefix_honest_clone` | propext, Classical.choice, Quot.sound |
| `Verif.Tree.C89_insert_honest_clone` | propext, Classical.choice, Quot.sound |
| `Verif.Tree.C89_union_with_honest_clone` | propext, Classical.choice, Quot.sound |
| `Verif.C90_new_set` | propext, Classical.choice, Quot.sound |
| `Verif.C90_assign` | propext, Classical.choice, Quot.sound |
| `Verif.C90_assign_no_clone` | propext, Classical.choice, Quot.sound |
| `Verif.C90_new_map` | propext, Classical.choice, Quot.sound |
| `Verif.C90_map_in_place` | propext, Classical.choice, Quot.sound |
| `Verif.C90_faithful` | propext, Quot.sound |
| `Verif.C90_faithful_assign` | propext, Classical.choice, Quot.sound |
| `Verif.C91_clone_set` | propext, Quot.sound |
| `Verif.C91_total_set` | propext, Classical.choice, Quot.sound |
| `Verif.C91_clone_map` | propext, Quot.sound |
| `Verif.C91_combine_ref` | propext, Classical.choice, Quot.sound |
| `Verif.C91_bounds` | propext, Classical.choice, Quot.sound |
| `Verif.C91_map_values` | propext |
| `Verif.C91_btree_joins` | propext, Quot.sound |
| `Verif.C92_by_reference` | propext, Classical.choice, Quot.sound |
| `Verif.C92_joins` | propext, Classical.choice, Quot.sound |
| `Verif.C92_in_place_shrinking` | propext, Quot.sound |
| `Verif.C92_in_place_union` | propext, Classical.choice, Quot.sound |
| `Verif.C92_in_place_extend` | propext, Classical.choice, Quot.sound |
| `Verif.C92_in_place_xor` | propext, Classical.choice, Quot.sound |
| `Verif.C92_xor_spills` | propext, Quot.sound |
| `Verif.C92_in_place_joins` | propext, Classical.choice, Quot.sound |
| `Verif.C92_in_place_combine` | propext, Classical.choice, Quot.sound |
| `Verif.C92_in_place_map_extend` | propext, Classical.choice, Quot.sound |
| `Verif.C92_collect` | propext, Classical.choice, Quot.sound |
| `Verif.C92_collect_allocates` | propext, Classical.choice, Quot.sound |
| `Verif.C92_collect_map` | propext, Classical.choice, Quot.sound |
| `Verif.C92_map_stays_on_heap` | propext, Quot.sound |
| `Verif.C92_insert` | propext, Classical.choice, Quot.sound |
| `Verif.C92_constructors` | propext, Classical.choice, Quot.sound |
| `Verif.C92_deserialize` | propext, Classical.choice, Quot.sound |
| `Verif.C92_history` | propext, Classical.choice, Quot.sound |
| `Verif.C93_sound` | propext, Quot.sound |
| `Verif.C93_monotone` | propext, Classical.choice, Quot.sound |
| `Verif.C93_exact` | propext, Classical.choice, Quot.sound |
| `Verif.Cow.C94_in_place` | propext, Classical.choice, Quot.sound |
| `Verif.Cow.C94_one_key` | propext, Classical.choice, Quot.sound |
| `Verif.Cow.C94_lookup` | propext, Classical.choice, Quot.sound |
| `Verif.Cow.C94_filter_prefix` | propext, Classical.choice, Quot.sound |
| `Verif.Cow.C94_once` | propext, Quot.sound |
| `Verif.Cow.C94_program` | propext, Classical.choice, Quot.sound |
| `Verif.Cow.C94_siblings` | propext, Classical.choice, Quot.sound |
| `Verif.Cow.C94_copies_again` | propext, Classical.choice, Quot.sound |
| `Verif.Cow.C95_iteration` | propext, Classical.choice, Quot.sound |
| `Verif.Cow.C95_reached` | propext, Quot.sound |
| `Verif.Cow.C95_once` | propext, Quot.sound |
| `Verif.Cow.C95_scan_prefix` | propext, Classical.choice, Quot.sound |
| `Verif.Tree.C96_relations` | propext, Classical.choice, Quot.sound |
| `Verif.Tree.C96_one_key` | propext, Classical.choice, Quot.sound |
| `Verif.Tree.C96_intersection` | propext, Quot.sound |
| `Verif.Tree.C96_intersection_loads_all` | propext, Classical.choice, Quot.sound |
| `Verif.Tree.C96_union_loads_all` | propext, Classical.choice, Quot.sound |
| `Verif.Tree.C96_difference_loads_left` | propext, Classical.choice, Quot.sound |
| `Verif.Tree.C96_operand` | propext, Classical.choice, Quot.sound |
| `Verif.Tree.C96_operand_loads_all` | propext, Classical.choice, Quot.sound |
| `Verif.Cow.C97_together` | propext, Classical.choice, Quot.sound |
| `Verif.Cow.C97_all_loaded` | propext, Classical.choice, Quot.sound |
| `Verif.Cow.C97_ends` | propext, Classical.choice, Quot.sound |
| `Verif.Cow.C97_ends_values` | propext, Classical.choice, Quot.sound |
| `Verif.Cow.C97_ends_scan` | propext, Classical.choice, Quot.sound |
| `Verif.C98_merge_depth` | propext, Classical.choice, Quot.sound |
| `Verif.C98_merge_empty` | propext, Quot.sound |
| `Verif.Archive.C99_depth` | propext, Quot.sound |
| `Verif.Archive.C99_depth_of_tree` | propext, Quot.sound |
| `Verif.Archive.C99_depth_needed` | propext, Classical.choice, Quot.sound |
| `Verif.Archive.C99_loading_depth` | propext, Classical.choice, Quot.sound |
| `Verif.Archive.C99_finding_overflow` | propext, Classical.choice, Quot.sound |
| `Verif.ArcArchive.C99_shared_depth` | propext, Quot.sound |
| `Verif.ArcArchive.C99_shared_depth_needed` | propext, Classical.choice, Quot.sound |
| `Verif.ArcArchive.C99_shared_loading_depth` | propext, Classical.choice, Quot.sound |
| `Verif.ArcArchive.C99_shared_finding_overflow` | propext, Classical.choice, Quot.sound |
| `Verif.Archive.C100_linear` | propext, Classical.choice, Quot.sound |
| `Verif.ArcArchive.C100_shared` | propext, Classical.choice, Quot.sound |
| `Verif.ArcArchive.C100_shared_looks` | propext, Quot.sound |
| `Verif.ArcArchive.C100_loading` | propext, Classical.choice, Quot.sound |
| `Verif.ArcArchive.C100_finding_quadratic` | propext, Classical.choice, Quot.sound |
