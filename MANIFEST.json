{
 "claims": [
  {
   "property": "C01",
   "status": "proved",
   "theorems": [
    "Verif.C01_always_strictly_ascending",
    "Verif.C01_every_ascending_is_built"
   ],
   "note": ""
  },
  {
   "property": "C02",
   "status": "proved",
   "theorems": [
    "Verif.C02_collect_membership",
    "Verif.C02_collect_contains"
   ],
   "note": ""
  },
  {
   "property": "C03",
   "status": "proved",
   "theorems": [
    "Verif.C03_sort_dedup_by_key",
    "Verif.C03_sort_dedup"
   ],
   "note": ""
  },
  {
   "property": "C04",
   "status": "proved",
   "theorems": [
    "Verif.C04_contains"
   ],
   "note": ""
  },
  {
   "property": "C05",
   "status": "proved",
   "theorems": [
    "Verif.C05_union",
    "Verif.C05_intersection",
    "Verif.C05_difference",
    "Verif.C05_symmetric_difference"
   ],
   "note": ""
  },
  {
   "property": "C06",
   "status": "proved",
   "theorems": [
    "Verif.C06_assign_ops_agree",
    "Verif.C06_extend"
   ],
   "note": ""
  },
  {
   "property": "C07",
   "status": "proved",
   "theorems": [
    "Verif.C07_relations",
    "Verif.C07_superset_iff_subset"
   ],
   "note": ""
  },
  {
   "property": "C08",
   "status": "proved",
   "theorems": [
    "Verif.C08_history_refines_sets",
    "Verif.C08_spec_deterministic"
   ],
   "note": ""
  },
  {
   "property": "C09",
   "status": "proved",
   "theorems": [
    "Verif.C09_hash_tells_apart",
    "Verif.C09_hash_of_slice",
    "Verif.C09_eq_iff_same_members",
    "Verif.C09_hash",
    "Verif.C09_cmp_total_order"
   ],
   "note": ""
  },
  {
   "property": "C10",
   "status": "proved",
   "theorems": [
    "Verif.C10_commutative",
    "Verif.C10_difference_laws",
    "Verif.C10_associative",
    "Verif.C10_distributive",
    "Verif.C10_idempotent_empty"
   ],
   "note": ""
  },
  {
   "property": "C11",
   "status": "partial",
   "theorems": [
    "Verif.C11_named_methods_partial",
    "Verif.C11_union_with_panics",
    "Verif.C11_xor_with_is_intersection",
    "Verif.C11_counterexample"
   ],
   "note": "False of the code: union_with panics when the argument has a new element, xor_with computes the intersection (both proved, with a concrete counterexample). intersection_with and difference_with are proved; union_with is proved for subsets."
  },
  {
   "property": "C12",
   "status": "proved",
   "theorems": [
    "Verif.C12_set_new_vector",
    "Verif.C12_set_in_place",
    "Verif.C12_set_bool",
    "Verif.C12_plans_legal",
    "Verif.C12_driver_runs_legal_schedule",
    "Verif.C12_map_in_place",
    "Verif.C12_map_new_vector"
   ],
   "note": "Set, map merges over every legal schedule; the driver of the crate is shown to run one."
  },
  {
   "property": "C13",
   "status": "proved",
   "theorems": [
    "Verif.C13_map_retain",
    "Verif.C13_retain_panic_permutation",
    "Verif.C13_set_retain",
    "Verif.C13_set_retain_pure"
   ],
   "note": ""
  },
  {
   "property": "C14",
   "status": "proved",
   "theorems": [
    "Verif.C14_representatives",
    "Verif.C14_insert_remove",
    "Verif.C14_collect_keeps_first"
   ],
   "note": ""
  },
  {
   "property": "C15",
   "status": "proved",
   "theorems": [
    "Verif.C15_roundtrip",
    "Verif.C15_any_sequence"
   ],
   "note": ""
  },
  {
   "property": "C16",
   "status": "proved",
   "theorems": [
    "Verif.C16_map_check_bytes",
    "Verif.C16_map_invalid_entry",
    "Verif.C16_map_archive_roundtrip",
    "Verif.C16_set_check_bytes",
    "Verif.C16_set_invalid_element",
    "Verif.C16_set_archive_roundtrip"
   ],
   "note": ""
  },
  {
   "property": "C17",
   "status": "proved",
   "theorems": [
    "Verif.C17_bounded_buffer",
    "Verif.C17_bound_attained"
   ],
   "note": "Bound max(16, 2n+1); the documented bound 2n is exceeded, shown by C17_bound_attained."
  },
  {
   "property": "C18",
   "status": "proved",
   "theorems": [
    "Verif.C18_keys_strictly_ascending",
    "Verif.C18_every_ascending_is_built"
   ],
   "note": ""
  },
  {
   "property": "C19",
   "status": "proved",
   "theorems": [
    "Verif.C19_collect_last_wins",
    "Verif.C19_collect_none"
   ],
   "note": ""
  },
  {
   "property": "C20",
   "status": "proved",
   "theorems": [
    "Verif.C20_history_refines_maps",
    "Verif.C20_insert",
    "Verif.C20_get"
   ],
   "note": ""
  },
  {
   "property": "C21",
   "status": "proved",
   "theorems": [
    "Verif.C21_outer_join",
    "Verif.C21_outer_join_get"
   ],
   "note": ""
  },
  {
   "property": "C22",
   "status": "proved",
   "theorems": [
    "Verif.C22_left_join",
    "Verif.C22_left_join_get"
   ],
   "note": ""
  },
  {
   "property": "C23",
   "status": "proved",
   "theorems": [
    "Verif.C23_right_join",
    "Verif.C23_right_join_get"
   ],
   "note": ""
  },
  {
   "property": "C24",
   "status": "proved",
   "theorems": [
    "Verif.C24_inner_join",
    "Verif.C24_inner_join_get"
   ],
   "note": ""
  },
  {
   "property": "C25",
   "status": "proved",
   "theorems": [
    "Verif.C25_in_place_joins_agree"
   ],
   "note": ""
  },
  {
   "property": "C26",
   "status": "proved",
   "theorems": [
    "Verif.C26_combine_with",
    "Verif.C26_merge_with_extend",
    "Verif.C26_combine_entries"
   ],
   "note": ""
  },
  {
   "property": "C27",
   "status": "proved",
   "theorems": [
    "Verif.C27_map_values",
    "Verif.C27_into_set",
    "Verif.C27_from_btree"
   ],
   "note": ""
  },
  {
   "property": "C28",
   "status": "proved",
   "theorems": [
    "Verif.C28_roundtrip",
    "Verif.C28_any_sequence",
    "Verif.C28_differs_from_collect"
   ],
   "note": ""
  },
  {
   "property": "C29",
   "status": "partial",
   "theorems": [
    "Verif.C29_outer_join_with_panic",
    "Verif.C29_other_joins_panic",
    "Verif.C29_interrupted_anywhere",
    "Verif.C29_retain_panic_unsorted"
   ],
   "note": "In-place joins: proved for every interruption point. retain with a panicking predicate can leave an unsorted collection (counterexample proved), only the multiset of remaining elements is preserved."
  },
  {
   "property": "C30",
   "status": "proved",
   "theorems": [
    "Verif.C30_pointwise",
    "Verif.C30_basic",
    "Verif.C30_empty_all"
   ],
   "note": ""
  },
  {
   "property": "C31",
   "status": "proved",
   "theorems": [
    "Verif.C31_assign_ops_agree"
   ],
   "note": ""
  },
  {
   "property": "C32",
   "status": "partial",
   "theorems": [
    "Verif.C32_subset_disjoint_partial",
    "Verif.C32_sound_partial",
    "Verif.C32_superset_counterexample",
    "Verif.C32_superset_false_positive",
    "Verif.C32_finite_counterexample"
   ],
   "note": "False of the code in two ways, both proved by counterexample: is_superset is computed as the negation of is_subset; over a finite element type is_subset/is_disjoint are inexact. is_subset and is_disjoint are proved exact over element types with no finite exhausting list."
  },
  {
   "property": "C33",
   "status": "proved",
   "theorems": [
    "Verif.C33_hash_tells_apart",
    "Verif.C33_eq_extensional",
    "Verif.C33_eq_sound_hash",
    "Verif.C33_empty_all",
    "Verif.C33_serde_roundtrip",
    "Verif.C33_deserialize"
   ],
   "note": ""
  },
  {
   "property": "C34",
   "status": "proved",
   "theorems": [
    "Verif.C34_insert_remove",
    "Verif.C34_history"
   ],
   "note": ""
  },
  {
   "property": "C35",
   "status": "proved",
   "theorems": [
    "Verif.C35_combine_ref",
    "Verif.C35_map_values",
    "Verif.C35_operators",
    "Verif.C35_new_constant"
   ],
   "note": ""
  },
  {
   "property": "C36",
   "status": "proved",
   "theorems": [
    "Verif.C36_no_default_stored"
   ],
   "note": ""
  },
  {
   "property": "C37",
   "status": "partial",
   "theorems": [
    "Verif.C37_eq_extensional_partial",
    "Verif.C37_hash",
    "Verif.C37_cmp_extensional",
    "Verif.C37_counterexample",
    "Verif.C37_serde_roundtrip",
    "Verif.C37_deserialize"
   ],
   "note": "== and Hash ignore the default, so maps with different defaults compare equal (counterexample proved). cmp is proved exact."
  },
  {
   "property": "C38",
   "status": "proved",
   "theorems": [
    "Verif.C38_lattice",
    "Verif.C38_neutral",
    "Verif.C38_is_const"
   ],
   "note": ""
  },
  {
   "property": "C39",
   "status": "proved",
   "theorems": [
    "Verif.BTreeMap.C39_outer_join",
    "Verif.BTreeMap.C39_left_join",
    "Verif.BTreeMap.C39_right_join",
    "Verif.BTreeMap.C39_inner_join",
    "Verif.BTreeMap.C39_agrees_with_VecMap"
   ],
   "note": ""
  },
  {
   "property": "C40",
   "status": "partial",
   "theorems": [
    "Verif.BTreeMap.C40_inner_join_with",
    "Verif.BTreeMap.C40_left_join_with",
    "Verif.BTreeMap.C40_outer_join_with",
    "Verif.BTreeMap.C40_right_join_with_partial",
    "Verif.BTreeMap.C40_right_join_with_counterexample"
   ],
   "note": "right_join_with keeps keys missing from the argument and never adds keys (counterexample proved); what it does instead is proved. The other three are proved."
  },
  {
   "property": "C41",
   "status": "proved",
   "theorems": [
    "Verif.Tree.C41_get",
    "Verif.Tree.C41_contains_key",
    "Verif.Tree.C41_functional",
    "Verif.Tree.C41_iter_values",
    "Verif.Tree.C41_iter_iff_get"
   ],
   "note": ""
  },
  {
   "property": "C42",
   "status": "proved",
   "theorems": [
    "Verif.Tree.C42_insert",
    "Verif.Tree.C42_history",
    "Verif.Tree.C42_collect"
   ],
   "note": ""
  },
  {
   "property": "C43",
   "status": "proved",
   "theorems": [
    "Verif.Tree.C43_outer_combine",
    "Verif.Tree.C43_outer_combine_with",
    "Verif.Tree.C43_union"
   ],
   "note": ""
  },
  {
   "property": "C44",
   "status": "proved",
   "theorems": [
    "Verif.Tree.C44_inner_combine",
    "Verif.Tree.C44_inner_combine_with",
    "Verif.Tree.C44_intersection"
   ],
   "note": ""
  },
  {
   "property": "C45",
   "status": "proved",
   "theorems": [
    "Verif.Tree.C45_left_combine_with",
    "Verif.Tree.C45_difference",
    "Verif.Tree.C45_left_combine",
    "Verif.Tree.C45_left_combine_not_everywhere"
   ],
   "note": "The natural reading of left_combine (f consulted for every key of a) is false of the code: C45_left_combine_not_everywhere. What it does is characterised exactly."
  },
  {
   "property": "C46",
   "status": "proved",
   "theorems": [
    "Verif.Tree.C46_algebra",
    "Verif.Tree.C46_combine"
   ],
   "note": ""
  },
  {
   "property": "C47",
   "status": "proved",
   "theorems": [
    "Verif.Tree.C47_reachable_canonical",
    "Verif.Tree.C47_canonical_reachable",
    "Verif.Tree.C47_eq",
    "Verif.Tree.C47_ext",
    "Verif.Tree.C47_is_empty"
   ],
   "note": ""
  },
  {
   "property": "C48",
   "status": "proved",
   "theorems": [
    "Verif.Tree.C48_is_subset",
    "Verif.Tree.C48_is_subset_sound",
    "Verif.Tree.C48_is_superset",
    "Verif.Tree.C48_intersects_is_disjoint"
   ],
   "note": ""
  },
  {
   "property": "C49",
   "status": "proved",
   "theorems": [
    "Verif.Tree.C49_filter_prefix",
    "Verif.Tree.C49_scan_prefix",
    "Verif.Tree.C49_prepend"
   ],
   "note": ""
  },
  {
   "property": "C50",
   "status": "proved",
   "theorems": [
    "Verif.Tree.C50_remove_prefix_with",
    "Verif.Tree.C50_retain_prefix_with"
   ],
   "note": ""
  },
  {
   "property": "C51",
   "status": "proved",
   "theorems": [
    "Verif.Tree.C51_no_panic"
   ],
   "note": ""
  },
  {
   "property": "C52",
   "status": "proved",
   "theorems": [
    "Verif.Tree.C52_check_bytes",
    "Verif.Tree.C52_accepted",
    "Verif.Tree.C52_roundtrip",
    "Verif.Tree.C52_not_canonical"
   ],
   "note": "Pointers inside the buffer are the subject of C79. C52_not_canonical: validated archives need not be canonical, is_subset can answer no wrongly on them (its yes is reliable, C48_is_subset_sound)."
  },
  {
   "property": "C53",
   "status": "proved",
   "theorems": [
    "Verif.Shared.C53_refines_values",
    "Verif.Shared.C53_meaning_unique",
    "Verif.Shared.C53_snapshot_isolation",
    "Verif.Shared.C53_clone",
    "Verif.Shared.C53_frame"
   ],
   "note": ""
  },
  {
   "property": "C54",
   "status": "proved",
   "theorems": [
    "Verif.Shared.C54_lazy_unobservable",
    "Verif.Shared.C54_lazy_eq_eager",
    "Verif.Shared.C54_reads_change_nothing"
   ],
   "note": ""
  },
  {
   "property": "C55",
   "status": "proved",
   "theorems": [
    "Verif.LazyCell.C55_sequential_meaning",
    "Verif.LazyCell.C55_initialised_once",
    "Verif.LazyCell.C55_no_panic",
    "Verif.LazyCell.C55_references_stable",
    "Verif.LazyCell.C55_no_data_race",
    "Verif.LazyCell.C55_no_deadlock",
    "Verif.LazyCell.C55_schedule_independent"
   ],
   "note": ""
  },
  {
   "property": "C56",
   "status": "proved",
   "theorems": [
    "Verif.Shared.C56_history",
    "Verif.Shared.C56_vacuum_crash",
    "Verif.Shared.C56_flush_crash",
    "Verif.Shared.C56_registry_sound",
    "Verif.Shared.C56_no_leak",
    "Verif.Shared.C56_flush_incremental",
    "Verif.Shared.C56_flush_changed",
    "Verif.Shared.C56_load_shares",
    "Verif.Shared.C56_flush_twice",
    "Verif.Shared.C56_vacuum_minimal"
   ],
   "note": ""
  },
  {
   "property": "C57",
   "status": "proved",
   "theorems": [
    "Verif.C57_set_elements",
    "Verif.C57_set_merge",
    "Verif.C57_converters",
    "Verif.C57_map_slots",
    "Verif.C57_map_merge",
    "Verif.C57_map_keys"
   ],
   "note": ""
  },
  {
   "property": "C58",
   "status": "proved",
   "theorems": [
    "Verif.C58_hash_tells_apart",
    "Verif.C58_hash_of_slice",
    "Verif.C58_eq_iff_same_bindings",
    "Verif.C58_hash",
    "Verif.C58_cmp_total_order"
   ],
   "note": ""
  },
  {
   "property": "C59",
   "status": "proved",
   "theorems": [
    "Verif.Shared.C59_counts_exact",
    "Verif.Shared.C59_no_leak"
   ],
   "note": ""
  },
  {
   "property": "C60",
   "status": "proved",
   "theorems": [
    "Verif.C60_set_lookup",
    "Verif.C60_map_lookup"
   ],
   "note": ""
  },
  {
   "property": "C61",
   "status": "proved",
   "theorems": [
    "Verif.C61_collect_work",
    "Verif.C61_collect_total",
    "Verif.C61_collect_sorted_input"
   ],
   "note": ""
  },
  {
   "property": "C62",
   "status": "proved",
   "theorems": [
    "Verif.C62_merge_comparisons",
    "Verif.C62_separated_sets",
    "Verif.C62_optimal",
    "Verif.C62_within_constant"
   ],
   "note": ""
  },
  {
   "property": "C63",
   "status": "proved",
   "theorems": [
    "Verif.C63_vecset_keeps_last",
    "Verif.C63_vecset_eq_collect",
    "Verif.C63_vecmap_is_collect",
    "Verif.C63_vecmap_last_wins"
   ],
   "note": ""
  },
  {
   "property": "C64",
   "status": "proved",
   "theorems": [
    "Verif.IterKey.C64_keys_are_values",
    "Verif.IterKey.C64_no_leak",
    "Verif.IterKey.C64_allocations",
    "Verif.IterKey.C64_no_copy_without_keys",
    "Verif.IterKey.C64_collected_keys"
   ],
   "note": ""
  },
  {
   "property": "C65",
   "status": "partial",
   "theorems": [
    "Verif.IntoIter.C65_alive_partial",
    "Verif.IntoIter.C65_enumerates_partial",
    "Verif.IntoIter.C65_dangling_after_drop",
    "Verif.IntoIter.C65_counterexample"
   ],
   "note": "False of the code (new finding): after dropping the iterator returned by into_iter every value reference obtained from it dangles although typed &'static V (C65_dangling_after_drop, C65_counterexample). Proved while the iterator is alive."
  },
  {
   "property": "C66",
   "status": "proved",
   "theorems": [
    "Verif.Iterators.C66_set_iter",
    "Verif.Iterators.C66_map_iter",
    "Verif.Iterators.C66_resume"
   ],
   "note": ""
  },
  {
   "property": "C67",
   "status": "proved",
   "theorems": [
    "Verif.C67_multimap_collect",
    "Verif.C67_multimap_combine",
    "Verif.C67_bimultimap_inverse",
    "Verif.C67_bimultimap_ops"
   ],
   "note": ""
  },
  {
   "property": "C68",
   "status": "partial",
   "theorems": [
    "Verif.Store.C68_mem_contract",
    "Verif.Store.C68_mem_files",
    "Verif.Store.C68_file_faults",
    "Verif.Store.C68_file_history",
    "Verif.Store.C68_file_contract_partial",
    "Verif.Store.C68_file_mv_missing",
    "Verif.Store.C68_frame",
    "Verif.Store.C68_mem_linearizable",
    "Verif.Store.C68_mem_no_deadlock",
    "Verif.Store.C68_db_files"
   ],
   "note": "False of FileStorage in one corner (C68_file_mv_missing): mv of a missing file to a missing name returns an error instead of Ok. Everything else is proved, for MemStorage in full including concurrency."
  },
  {
   "property": "C69",
   "status": "proved",
   "theorems": [
    "Verif.Watch.C69_delivery",
    "Verif.Watch.C69_nothing_before",
    "Verif.Watch.C69_unsubscribe",
    "Verif.Watch.C69_batches",
    "Verif.Watch.C69_not_incremental"
   ],
   "note": "The incremental reading of watch_prefix (each batch = changes since the previous batch) is false of the code: C69_not_incremental."
  },
  {
   "property": "C70",
   "status": "proved",
   "theorems": [
    "Verif.Tree.C70_outer",
    "Verif.Tree.C70_inner",
    "Verif.Tree.C70_left",
    "Verif.Tree.C70_panics_iff",
    "Verif.Tree.C70_no_invention",
    "Verif.Tree.C70_counterexample"
   ],
   "note": ""
  },
  {
   "property": "C71",
   "status": "proved",
   "theorems": [
    "Verif.Shared.C71_independent",
    "Verif.Shared.C71_same_name_counterexample",
    "Verif.Shared.C71_tmp_counterexample"
   ],
   "note": ""
  },
  {
   "property": "C72",
   "status": "proved",
   "theorems": [
    "Verif.Shared.C72_late_error",
    "Verif.Shared.C72_flush_counterexample"
   ],
   "note": ""
  },
  {
   "property": "C73",
   "status": "proved",
   "theorems": [
    "Verif.Shared.C73_history",
    "Verif.Shared.C73_flavours_agree",
    "Verif.Shared.C73_canonical",
    "Verif.Shared.C73_no_leak",
    "Verif.Shared.C73_get",
    "Verif.Shared.C73_iter",
    "Verif.Shared.C73_compare",
    "Verif.Shared.C73_left_combine"
   ],
   "note": ""
  },
  {
   "property": "C74",
   "status": "proved",
   "theorems": [
    "Verif.Threads.C74_linearizable",
    "Verif.Threads.C74_program_order",
    "Verif.Threads.C74_no_fault",
    "Verif.Threads.C74_exclusive",
    "Verif.Threads.C74_counts_exact",
    "Verif.Threads.C74_no_leak",
    "Verif.Threads.C74_wait_free"
   ],
   "note": ""
  },
  {
   "property": "C75",
   "status": "proved",
   "theorems": [
    "Verif.Hostile.C75_contains",
    "Verif.Hostile.C75_insert",
    "Verif.Hostile.C75_remove",
    "Verif.Hostile.C75_map_get",
    "Verif.Hostile.C75_map_insert",
    "Verif.Hostile.C75_map_get_mut",
    "Verif.Hostile.C75_collect",
    "Verif.Hostile.C75_set_algebra",
    "Verif.Hostile.C75_relations",
    "Verif.Hostile.C75_set_in_place",
    "Verif.Hostile.C75_in_place_agrees",
    "Verif.Hostile.C75_map_joins",
    "Verif.Hostile.C75_map_joins_in_place",
    "Verif.Hostile.C75_panicking_order_elements",
    "Verif.Hostile.C75_panicking_order_collect",
    "Verif.Hostile.C75_panicking_order_results",
    "Verif.Hostile.C75_panicking_order_in_place",
    "Verif.Hostile.C75_panicking_order_joins",
    "Verif.Hostile.C75_panicking_order_entries",
    "Verif.Hostile.C75_panicking_order_history",
    "Verif.Hostile.C75_extend",
    "Verif.Hostile.C75_panicking_order_extend"
   ],
   "note": ""
  },
  {
   "property": "C76",
   "status": "proved",
   "theorems": [
    "Verif.Tree.C76_shallow_iff_short_keys",
    "Verif.Tree.C76_combine_depth",
    "Verif.Tree.C76_key_depth",
    "Verif.Tree.C76_nesting"
   ],
   "note": ""
  },
  {
   "property": "C77",
   "status": "proved",
   "theorems": [
    "Verif.Tree.C77_equality_tests",
    "Verif.Tree.C77_comparisons",
    "Verif.Tree.C77_alphabet"
   ],
   "note": ""
  },
  {
   "property": "C78",
   "status": "proved",
   "theorems": [
    "Verif.Tree.C78_space",
    "Verif.Tree.C78_iteration"
   ],
   "note": ""
  },
  {
   "property": "C79",
   "status": "partial",
   "theorems": [
    "Verif.Archive.C79_terminates",
    "Verif.Archive.C79_accepts_only_trees",
    "Verif.Archive.C79_reading",
    "Verif.Archive.C79_no_undefined_behaviour_partial",
    "Verif.Archive.C79_written",
    "Verif.Archive.C79_written_apart",
    "Verif.Archive.C79_sets_and_maps",
    "Verif.Archive.C79_hostile_counterexample"
   ],
   "note": "False of the code for trees: check_bytes dereferences the vector of children, and the prefixes of the children, before checking them (C79_hostile_counterexample, 24 bytes). Freedom from undefined behaviour is proved for archives whose pointers stay in the buffer (C79_no_undefined_behaviour_partial) and, without conditions, for sets and maps; termination, what acceptance implies, and the round trip are proved for all buffers. ArcRadixTree archives (shared pointers) are C87."
  },
  {
   "property": "C80",
   "status": "proved",
   "theorems": [
    "Verif.C80_outer_join",
    "Verif.C80_left_join",
    "Verif.C80_right_join",
    "Verif.C80_inner_join",
    "Verif.C80_outer_join_with",
    "Verif.C80_left_join_with",
    "Verif.C80_right_join_with",
    "Verif.C80_inner_join_with",
    "Verif.C80_order_unique",
    "Verif.C80_combine_map_values",
    "Verif.C80_total_combine_ref",
    "Verif.C80_total_map_values",
    "Verif.C80_any_schedule",
    "Verif.C80_pure_closures",
    "Verif.C80_results_ascending"
   ],
   "note": ""
  },
  {
   "property": "C81",
   "status": "proved",
   "theorems": [
    "Verif.BTreeMap.C81_outer_join",
    "Verif.BTreeMap.C81_left_join",
    "Verif.BTreeMap.C81_right_join",
    "Verif.BTreeMap.C81_inner_join",
    "Verif.BTreeMap.C81_left_join_with",
    "Verif.BTreeMap.C81_inner_join_with",
    "Verif.BTreeMap.C81_right_join_with",
    "Verif.BTreeMap.C81_outer_join_with",
    "Verif.BTreeMap.C81_pure_closures"
   ],
   "note": ""
  },
  {
   "property": "C82",
   "status": "proved",
   "theorems": [
    "Verif.Tree.C82_outer_combine_with",
    "Verif.Tree.C82_inner_combine_with",
    "Verif.Tree.C82_left_combine_with"
   ],
   "note": ""
  },
  {
   "property": "C83",
   "status": "proved",
   "theorems": [
    "Verif.Tree.C83_outer_combine",
    "Verif.Tree.C83_inner_combine",
    "Verif.Tree.C83_left_combine"
   ],
   "note": ""
  },
  {
   "property": "C84",
   "status": "proved",
   "theorems": [
    "Verif.Tree.C84_remove_prefix_with",
    "Verif.Tree.C84_retain_prefix_with",
    "Verif.Tree.C84_stateless"
   ],
   "note": ""
  },
  {
   "property": "C85",
   "status": "proved",
   "theorems": [
    "Verif.Tree.C85_outer",
    "Verif.Tree.C85_inner",
    "Verif.Tree.C85_left",
    "Verif.Tree.C85_prefix",
    "Verif.Tree.C85_insert",
    "Verif.Tree.C85_relations",
    "Verif.Tree.C85_relations_scan"
   ],
   "note": ""
  },
  {
   "property": "C86",
   "status": "proved",
   "theorems": [
    "Verif.Hostile.Radix.C86_outer_combine_with",
    "Verif.Hostile.Radix.C86_insert",
    "Verif.Hostile.Radix.C86_inner_combine_with",
    "Verif.Hostile.Radix.C86_left_combine_with",
    "Verif.Hostile.Radix.C86_remove_prefix_with",
    "Verif.Hostile.Radix.C86_retain_prefix_with",
    "Verif.Hostile.Radix.C86_combine",
    "Verif.Hostile.Radix.C86_combine_keeping",
    "Verif.Hostile.Radix.C86_questions",
    "Verif.Hostile.Radix.C86_consistent_outer_combine_with",
    "Verif.Hostile.Radix.C86_consistent_insert",
    "Verif.Hostile.Radix.C86_consistent_inner_combine_with",
    "Verif.Hostile.Radix.C86_consistent_left_combine_with",
    "Verif.Hostile.Radix.C86_consistent_prefix_with",
    "Verif.Hostile.Radix.C86_consistent_combine",
    "Verif.Hostile.Radix.C86_consistent_combine_keeping",
    "Verif.Hostile.Radix.C86_questions_panics",
    "Verif.Hostile.Radix.C86_consistent_history",
    "Verif.Hostile.Radix.C86_finding_bad_tree",
    "Verif.Hostile.Radix.C86_finding_bad_tree_panics",
    "Verif.Hostile.Radix.C86_ordered_outer_combine_with",
    "Verif.Hostile.Radix.C86_ordered_insert",
    "Verif.Hostile.Radix.C86_ordered_inner_combine_with",
    "Verif.Hostile.Radix.C86_ordered_left_combine_with",
    "Verif.Hostile.Radix.C86_ordered_remove_prefix_with",
    "Verif.Hostile.Radix.C86_ordered_retain_prefix_with",
    "Verif.Hostile.Radix.C86_ordered_combine",
    "Verif.Hostile.Radix.C86_ordered_questions",
    "Verif.Hostile.Radix.C86_finding_unsorted"
   ],
   "note": ""
  },
  {
   "property": "C87",
   "status": "partial",
   "theorems": [
    "Verif.ArcArchive.C87_terminates",
    "Verif.ArcArchive.C87_accepted_safe",
    "Verif.ArcArchive.C87_accepted_acyclic",
    "Verif.ArcArchive.C87_no_undefined_behaviour_partial",
    "Verif.ArcArchive.C87_reading",
    "Verif.ArcArchive.C87_loading",
    "Verif.ArcArchive.C87_written",
    "Verif.ArcArchive.C87_written_many",
    "Verif.ArcArchive.C87_written_apart",
    "Verif.ArcArchive.C87_written_once",
    "Verif.ArcArchive.C87_finding_second_tree_rejected",
    "Verif.ArcArchive.C87_reopened",
    "Verif.ArcArchive.C87_hostile_counterexample",
    "Verif.ArcArchive.C87_finding_cycle",
    "Verif.ArcArchive.C87_finding_exponential"
   ],
   "note": "False of the code: check_bytes follows the pointer to the vector of children before checking it (C87_hostile_counterexample, 16 bytes). Freedom from undefined behaviour is proved for archives whose pointers stay in the buffer (C87_no_undefined_behaviour_partial). All else in the statement is proved for all buffers, trees and histories of writes; C87_finding_cycle, C87_finding_second_tree_rejected and C87_finding_exponential are findings."
  },
  {
   "property": "C88",
   "status": "proved",
   "theorems": [
    "Verif.Hostile.C88_contains",
    "Verif.Hostile.C88_insert",
    "Verif.Hostile.C88_remove",
    "Verif.Hostile.C88_relations",
    "Verif.Hostile.C88_operators",
    "Verif.Hostile.C88_assigning",
    "Verif.Hostile.C88_panicking_order_elements",
    "Verif.Hostile.C88_panicking_order_relations",
    "Verif.Hostile.C88_panicking_order_operators",
    "Verif.Hostile.C88_panicking_order_assigning",
    "Verif.Hostile.C88_panicking_order_history",
    "Verif.Hostile.C88_map_index",
    "Verif.Hostile.C88_map_combine",
    "Verif.Hostile.C88_panicking_order_maps",
    "Verif.Hostile.C88_caught_panic_inverts"
   ],
   "note": ""
  },
  {
   "property": "C89",
   "status": "proved",
   "theorems": [
    "Verif.Tree.C89_outer_any_clone",
    "Verif.Tree.C89_inner_any_clone",
    "Verif.Tree.C89_left_any_clone",
    "Verif.Tree.C89_remove_prefix_any_clone",
    "Verif.Tree.C89_retain_prefix_any_clone",
    "Verif.Tree.C89_insert_any_clone",
    "Verif.Tree.C89_outer_honest_clone",
    "Verif.Tree.C89_inner_honest_clone",
    "Verif.Tree.C89_left_honest_clone",
    "Verif.Tree.C89_remove_prefix_honest_clone",
    "Verif.Tree.C89_retain_prefix_honest_clone",
    "Verif.Tree.C89_insert_honest_clone",
    "Verif.Tree.C89_union_with_honest_clone"
   ],
   "note": ""
  },
  {
   "property": "C90",
   "status": "proved",
   "theorems": [
    "Verif.C90_new_set",
    "Verif.C90_assign",
    "Verif.C90_assign_no_clone",
    "Verif.C90_new_map",
    "Verif.C90_map_in_place",
    "Verif.C90_faithful",
    "Verif.C90_faithful_assign"
   ],
   "note": ""
  },
  {
   "property": "C91",
   "status": "proved",
   "theorems": [
    "Verif.C91_clone_set",
    "Verif.C91_total_set",
    "Verif.C91_clone_map",
    "Verif.C91_combine_ref",
    "Verif.C91_bounds",
    "Verif.C91_map_values",
    "Verif.C91_btree_joins"
   ],
   "note": ""
  },
  {
   "property": "C92",
   "status": "proved",
   "theorems": [
    "Verif.C92_by_reference",
    "Verif.C92_joins",
    "Verif.C92_in_place_shrinking",
    "Verif.C92_in_place_union",
    "Verif.C92_in_place_extend",
    "Verif.C92_in_place_xor",
    "Verif.C92_xor_spills",
    "Verif.C92_in_place_joins",
    "Verif.C92_in_place_combine",
    "Verif.C92_in_place_map_extend",
    "Verif.C92_collect",
    "Verif.C92_collect_allocates",
    "Verif.C92_collect_map",
    "Verif.C92_map_stays_on_heap",
    "Verif.C92_insert",
    "Verif.C92_constructors",
    "Verif.C92_deserialize",
    "Verif.C92_history"
   ],
   "note": ""
  },
  {
   "property": "C93",
   "status": "proved",
   "theorems": [
    "Verif.C93_sound",
    "Verif.C93_monotone",
    "Verif.C93_exact"
   ],
   "note": ""
  },
  {
   "property": "C94",
   "status": "proved",
   "theorems": [
    "Verif.Cow.C94_in_place",
    "Verif.Cow.C94_one_key",
    "Verif.Cow.C94_lookup",
    "Verif.Cow.C94_filter_prefix",
    "Verif.Cow.C94_once",
    "Verif.Cow.C94_program",
    "Verif.Cow.C94_siblings",
    "Verif.Cow.C94_copies_again"
   ],
   "note": ""
  },
  {
   "property": "C95",
   "status": "proved",
   "theorems": [
    "Verif.Cow.C95_iteration",
    "Verif.Cow.C95_reached",
    "Verif.Cow.C95_once",
    "Verif.Cow.C95_scan_prefix"
   ],
   "note": ""
  },
  {
   "property": "C96",
   "status": "proved",
   "theorems": [
    "Verif.Tree.C96_relations",
    "Verif.Tree.C96_one_key",
    "Verif.Tree.C96_intersection",
    "Verif.Tree.C96_intersection_loads_all",
    "Verif.Tree.C96_union_loads_all",
    "Verif.Tree.C96_difference_loads_left",
    "Verif.Tree.C96_operand",
    "Verif.Tree.C96_operand_loads_all"
   ],
   "note": ""
  },
  {
   "property": "C97",
   "status": "proved",
   "theorems": [
    "Verif.Cow.C97_together",
    "Verif.Cow.C97_all_loaded",
    "Verif.Cow.C97_ends",
    "Verif.Cow.C97_ends_values",
    "Verif.Cow.C97_ends_scan"
   ],
   "note": ""
  },
  {
   "property": "C98",
   "status": "proved",
   "theorems": [
    "Verif.C98_merge_depth",
    "Verif.C98_merge_empty"
   ],
   "note": ""
  },
  {
   "property": "C99",
   "status": "proved",
   "theorems": [
    "Verif.Archive.C99_depth",
    "Verif.Archive.C99_depth_of_tree",
    "Verif.Archive.C99_depth_needed",
    "Verif.Archive.C99_loading_depth",
    "Verif.Archive.C99_finding_overflow",
    "Verif.ArcArchive.C99_shared_depth",
    "Verif.ArcArchive.C99_shared_depth_needed",
    "Verif.ArcArchive.C99_shared_loading_depth",
    "Verif.ArcArchive.C99_shared_finding_overflow"
   ],
   "note": ""
  },
  {
   "property": "C100",
   "status": "proved",
   "theorems": [
    "Verif.Archive.C100_linear",
    "Verif.ArcArchive.C100_shared",
    "Verif.ArcArchive.C100_shared_looks",
    "Verif.ArcArchive.C100_loading",
    "Verif.ArcArchive.C100_finding_quadratic"
   ],
   "note": ""
  }
 ]
}