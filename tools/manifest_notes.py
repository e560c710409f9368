# status and note per property; default is ("proved", "")
NOTES = {
 "C11": ("partial", "False of the code: union_with panics when the argument has a new element, xor_with computes the intersection (both proved, with a concrete counterexample). intersection_with and difference_with are proved; union_with is proved for subsets."),
 "C12": ("proved", "Set, map merges over every legal schedule; the driver of the crate is shown to run one."),
 "C29": ("partial", "In-place joins: proved for every interruption point. retain with a panicking predicate can leave an unsorted collection (counterexample proved), only the multiset of remaining elements is preserved."),
 "C17": ("proved", "Bound max(16, 2n+1); the documented bound 2n is exceeded, shown by C17_bound_attained."),
 "C32": ("partial", "False of the code in two ways, both proved by counterexample: is_superset is computed as the negation of is_subset; over a finite element type is_subset/is_disjoint are inexact. is_subset and is_disjoint are proved exact over element types with no finite exhausting list."),
 "C37": ("partial", "== and Hash ignore the default, so maps with different defaults compare equal (counterexample proved). cmp is proved exact."),
 "C40": ("partial", "right_join_with keeps keys missing from the argument and never adds keys (counterexample proved); what it does instead is proved. The other three are proved."),
 "C45": ("proved", "The natural reading of left_combine (f consulted for every key of a) is false of the code: C45_left_combine_not_everywhere. What it does is characterised exactly."),
 "C52": ("proved", "Pointers inside the buffer are the subject of C79. C52_not_canonical: validated archives need not be canonical, is_subset can answer no wrongly on them (its yes is reliable, C48_is_subset_sound)."),
 "C65": ("partial", "False of the code (new finding): after dropping the iterator returned by into_iter every value reference obtained from it dangles although typed &'static V (C65_dangling_after_drop, C65_counterexample). Proved while the iterator is alive."),
 "C68": ("partial", "False of FileStorage in one corner (C68_file_mv_missing): mv of a missing file to a missing name returns an error instead of Ok. Everything else is proved, for MemStorage in full including concurrency."),
 "C69": ("proved", "The incremental reading of watch_prefix (each batch = changes since the previous batch) is false of the code: C69_not_incremental."),
 "C79": ("partial", "False of the code for trees: check_bytes dereferences the vector of children, and the prefixes of the children, before checking them (C79_hostile_counterexample, 24 bytes). Freedom from undefined behaviour is proved for archives whose pointers stay in the buffer (C79_no_undefined_behaviour_partial) and, without conditions, for sets and maps; termination, what acceptance implies, and the round trip are proved for all buffers. ArcRadixTree archives (shared pointers) are C87."),
 "C87": ("partial", "False of the code: check_bytes follows the pointer to the vector of children before checking it (C87_hostile_counterexample, 16 bytes). Freedom from undefined behaviour is proved for archives whose pointers stay in the buffer (C87_no_undefined_behaviour_partial). All else in the statement is proved for all buffers, trees and histories of writes; C87_finding_cycle, C87_finding_second_tree_rejected and C87_finding_exponential are findings."),
}
