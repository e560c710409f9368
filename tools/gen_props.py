#!/usr/bin/env python3
"""Writes /verif/properties.jsonl (one JSON object per line)."""
import json, os
P = []
def p(id, title, statement, quantifier, why, anchors):
    P.append(dict(id=id, title=title, statement=statement, quantifier=quantifier,
                  why_tests_cant=why, anchors=anchors))
INF = "The input space is unbounded (all sizes, all element orders, all duplicates); quickcheck only samples it."
HIST = "The claim ranges over every finite history of operations, which cannot be enumerated."

# ---------------- VecSet
p("C01", "A VecSet is always strictly ascending",
  "Whatever public constructors and operations produced it, the slice exposed by a VecSet (as_ref, iter, into_iter, into_inner) is strictly ascending in the element order: sorted and without duplicates.",
  "every element type with a lawful Ord, every finite history of constructors, inserts, removes, retains, extends, set algebra (by reference, in place, named in-place methods that return), conversions and deserialisation", HIST,
  ["src/vec_set.rs: VecSet, FromIterator, From<Vec>, From<BTreeSet>, insert, remove, retain, Extend, BitOr/BitAnd/BitXor/Sub, *Assign, Deserialize"])
p("C02", "collect() contains exactly the items of the iterator",
  "Collecting an iterator into a VecSet gives a set that contains x iff the iterator yielded an element equal to x; the periodic compaction heuristic is unobservable. From<Vec> behaves the same.",
  "every finite iterator: all lengths, orders and duplicate patterns", INF + " The compaction points depend on length and duplicate pattern.",
  ["src/vec_set.rs: FromIterator::from_iter, from_vec", "src/dedup.rs: sort_dedup, SortAndDedup::push, sort_and_dedup, dedup_by"])
p("C03", "sort_dedup keeps the first / last of equal items as asked",
  "sort_dedup / sort_dedup_by_key return a strictly ascending sequence with one representative for each key of the input and nothing else; the representative is the first occurrence for Keep::First and the last occurrence for Keep::Last.",
  "every finite iterator, every key function, every lawful (not necessarily injective) ordering of keys, both Keep modes", INF + " Which duplicate survives depends on how many compactions happened between the two.",
  ["src/dedup.rs: sort_dedup, sort_dedup_by, sort_dedup_by_key, dedup_by, Keep"])
p("C04", "contains() is membership",
  "contains(x) on a VecSet is true iff an element equal to x is in the set; binary search never misses and never panics.",
  "every valid set of any size and every probe", INF,
  ["src/vec_set.rs: AbstractVecSet::contains"])
p("C05", "Set algebra by reference computes union, intersection, difference and symmetric difference",
  "For valid sets a, b: x in (a|b) iff in a or b; x in (a&b) iff in both; x in (a-b) iff in a and not b; x in (a^b) iff in exactly one. The result is again a valid set, and no call panics.",
  "every pair of valid sets and every probe", INF + " The merge is a recursive binary-search merge whose split points depend on the data.",
  ["src/vec_set.rs: union, intersection, symmetric_difference, difference, SetUnionOp, SetIntersectionOp, SetXorOp, SetDiffOpt", "src/merge_state.rs: SmallVecMergeState"])
p("C06", "In-place operators agree with the by-reference operators",
  "a |= b, a &= b, a ^= b, a -= b (with b owned or borrowed) leave in a exactly the elements of a|b, a&b, a^b, a-b, in the same order, and never panic.",
  "every pair of valid sets", INF,
  ["src/vec_set.rs: BitOrAssign, BitAndAssign, BitXorAssign, SubAssign", "src/merge_state.rs: InPlaceMergeState, InPlaceSmallVecMergeStateRef"])
p("C07", "is_subset, is_superset and is_disjoint decide the set relations",
  "a.is_subset(b) iff every element of a is in b; a.is_superset(b) iff b.is_subset(a); a.is_disjoint(b) iff no common element; early abort of the merge never changes the answer.",
  "every pair of valid sets", INF,
  ["src/vec_set.rs: is_disjoint, is_subset, is_superset", "src/merge_state.rs: BoolOpMergeState"])
p("C08", "A VecSet behaves like a mathematical set along any history",
  "insert returns true iff the element was absent, remove returns true iff it was present, and after any sequence of inserts, removes, retains, extends and in-place set operations the answers of contains, len and is_empty are those of the mathematical set obtained by the same sequence.",
  "every finite sequence of operations from the empty set", HIST,
  ["src/vec_set.rs: insert, remove, retain, extend, len, is_empty"])
p("C09", "Equality, ordering and hashing of sets are extensional",
  "Two valid sets with the same members are ==, compare as Equal and present the same data to a hasher, no matter how they were built; sets with different members are !=; cmp is a total order consistent with ==. If the elements' hashes tell them apart, so do the sets' (also as a part of larger keys); a set hashes like the slice of its elements.",
  "every pair/triple of valid sets", INF,
  ["src/vec_set.rs: PartialEq, Ord, Hash for VecSet"])
p("C10", "Set operations obey the algebraic laws up to ==",
  "Union, intersection and xor are commutative and associative, union and intersection are idempotent and distribute over each other, a-b = a&(a^b), and empty is neutral/absorbing, as == equalities of VecSets.",
  "all triples of valid sets", INF,
  ["src/vec_set.rs: BitOr, BitAnd, BitXor, Sub"])
p("C11", "The named in-place methods compute what they are named after",
  "a.union_with(&b), a.intersection_with(&b), a.xor_with(&b), a.difference_with(&b) leave a equal to a|b, a&b, a^b, a-b without panicking.",
  "every pair of valid sets", INF + " No unit test calls these four methods.",
  ["src/vec_set.rs: union_with, intersection_with, xor_with, difference_with"])
p("C12", "Results do not depend on the merge schedule",
  "Whatever sequence of 'take n from a / take n from b / collision' calls the merge driver issues, as long as each call is legal for the two sorted inputs, every set, map and tree merge built on it ends with the same result; binary merge and tape merge are both legal schedules.",
  "every pair of sorted inputs, every legal call schedule, every merge operation of the crate", "Schedules are chosen inside a dependency and depend on its version; a test observes only one schedule per input.",
  ["src/merge_state.rs", "binary-merge: MergeOperation::merge"])
p("C13", "retain keeps exactly the matching elements",
  "After retain(f) the collection holds exactly the elements (entries) satisfying f, in the same order, and is still valid; stateful predicates see every element once, in order.",
  "every valid set or map, every predicate (including stateful ones)", INF,
  ["src/vec_set.rs: retain", "src/vec_map.rs: retain"])
p("C14", "Which of two equal-but-distinguishable elements survives is fixed",
  "For element types whose Ord ignores part of the data: union and intersection keep the element of the left operand, insert replaces the stored element by the new one, collect keeps the first.",
  "every lawful preorder on elements, every pair of valid sets", INF + " The quickcheck tests use i64 where equal elements are indistinguishable.",
  ["src/vec_set.rs: SetUnionOp::collision, SetIntersectionOp::collision, insert, from_iter"])
p("C15", "Sequence (de)serialisation of sets",
  "Deserialising the serialised form of a valid set yields the same set; deserialising any sequence of elements (unsorted, with duplicates) yields a valid set with exactly these members; an element error makes the whole deserialisation fail.",
  "every valid set, every element sequence", INF,
  ["src/vec_set.rs: Serialize, Deserialize, VecSetVisitor::visit_seq"])
p("C16", "Archive validation of sets and maps accepts exactly the ordered ones",
  "check_bytes on an archived set (map) whose elements are individually valid succeeds iff the elements (keys) are strictly ascending; an accepted archive answers contains/get correctly; archiving then deserialising gives back the same collection.",
  "every archived element sequence, every valid collection", "Untrusted bytes: all sequences must be covered, including adversarial ones.",
  ["src/vec_set.rs: ArchivedVecSet, CheckBytes", "src/vec_map.rs: ArchivedVecMap, CheckBytes"])
p("C17", "Bounded intermediate storage while collecting",
  "While collecting an iterator into a set the intermediate buffer never exceeds max(16, 2*n+1) elements where n is the size of the resulting set (documented as 'never more than twice the size of the resulting set').",
  "every finite iterator, every moment during collection", INF + " The peak size is not observable by the existing tests.",
  ["src/vec_set.rs: FromIterator doc comment", "src/dedup.rs: SortAndDedup::push"])

# ---------------- VecMap
p("C18", "VecMap keys are always strictly ascending",
  "Whatever public operations produced it, the entries of a VecMap are strictly ascending by key: sorted, one entry per key.",
  "every key type with a lawful Ord, every value type, every finite history of constructors, insert, get_mut writes, retain, extend, map_values, joins, in-place joins, combine_with, merge_with, deserialisation", HIST,
  ["src/vec_map.rs: VecMap"])
p("C19", "collect() into a map: last entry per key wins",
  "Collecting key/value pairs into a VecMap gives get(k) = the value of the last pair with key k, None if there is none.",
  "every finite sequence of pairs", INF, ["src/vec_map.rs: FromIterator", "src/dedup.rs: Keep::Last"])
p("C20", "VecMap behaves like a finite map along any history",
  "insert returns the previous value for the key and afterwards get(k) is the new value while all other keys are unchanged; writes through get_mut change only that key; the answers of get after any history are those of a finite map.",
  "every finite sequence of operations", HIST, ["src/vec_map.rs: insert, get, get_mut, extend"])
p("C21", "outer_join is the pointwise outer join",
  "get(k) of a.outer_join(b,f) is f(Both(k,v,w)) if both maps have k, f(Left(k,v)) / f(Right(k,w)) if only one has, None otherwise; the result is a valid map.",
  "every pair of valid maps, every pure function f", INF, ["src/vec_map.rs: outer_join, OuterJoinOp"])
p("C22", "left_join", "get(k) of a.left_join(b,f) is f(k, a[k], b.get(k)) for keys of a, None otherwise; the result is valid.",
  "every pair of valid maps, every pure function f", INF, ["src/vec_map.rs: left_join, LeftJoinOp"])
p("C23", "right_join", "get(k) of a.right_join(b,f) is f(k, a.get(k), b[k]) for keys of b, None otherwise; the result is valid.",
  "every pair of valid maps, every pure function f", INF, ["src/vec_map.rs: right_join, RightJoinOp"])
p("C24", "inner_join", "get(k) of a.inner_join(b,f) is f(k, a[k], b[k]) for keys of both maps, None otherwise; the result is valid.",
  "every pair of valid maps, every pure function f", INF, ["src/vec_map.rs: inner_join, InnerJoinOp"])
p("C25", "In-place joins agree with the joins",
  "outer/left/right/inner_join_with leave self equal to the corresponding join of the old self with that.",
  "every pair of valid maps, every pure function f", INF, ["src/vec_map.rs: *_join_with"])
p("C26", "combine_with, merge_with and extend",
  "After a.combine_with(b,f): keys of only one map keep their value, common keys k get f(a[k], b[k]). merge_with and extend are right-biased: values of b win, for extend the last item per key wins.",
  "every pair of valid maps, every f, every iterator", INF, ["src/vec_map.rs: combine_with, merge_with, Extend"])
p("C27", "map_values and conversions preserve keys and validity",
  "map_values changes each value to f(value) and keeps the keys; converting a VecMap into a VecSet of pairs yields a valid set; converting from a BTreeMap/BTreeSet preserves contents.",
  "every valid map, every f", INF, ["src/vec_map.rs: map_values, From<VecMap> for VecSet, From<BTreeMap>", "src/vec_set.rs: From<BTreeSet>"])
p("C28", "Map (de)serialisation",
  "Deserialising the serialised form of a valid map yields the same map. Deserialising an arbitrary entry sequence yields a valid map with the same keys in which the FIRST entry of a repeated key wins, i.e. it does not agree with collect(), where the last one wins.",
  "every valid map, every entry sequence", INF, ["src/vec_map.rs: Serialize, Deserialize, VecMapVisitor::visit_map"])
p("C29", "A panicking callback leaves a valid collection",
  "If the user function passed to an in-place join / combine_with panics at any call (or a comparison panics), the map observed after unwinding is still strictly ascending by key, and each of its entries is one that the completed operation had already produced.",
  "every pair of valid maps, every function that may panic at any call, every interruption point", "Every interruption point of every execution must be covered; tests contain no panicking callbacks.",
  ["src/vec_map.rs: *_join_with, combine_with", "src/merge_state.rs: InPlaceMergeState (dropped during unwinding)"])

# ---------------- TotalVecSet / TotalVecMap
p("C30", "TotalVecSet operators are pointwise boolean operations",
  "contains(x) of a&b, a|b, a^b, a-b, !a is the corresponding boolean combination of a.contains(x) and b.contains(x), for all four combinations of negation flags. empty() contains nothing, all() everything.",
  "all pairs of total sets, all probes", INF, ["src/total_vec_set.rs: BitAnd, BitOr, BitXor, Sub, Not, contains"])
p("C31", "TotalVecSet assignment operators agree with the pure ones",
  "a &= b, a |= b, a ^= b, a -= b leave a equal to a&b, a|b, a^b, a-b.",
  "all pairs of total sets", INF, ["src/total_vec_set.rs: BitAndAssign, BitOrAssign, BitXorAssign, SubAssign"])
p("C32", "TotalVecSet relations",
  "a.is_subset(b), a.is_superset(b), a.is_disjoint(b) decide the corresponding relation between the denoted (possibly co-finite) sets.",
  "all pairs of total sets over any element type", INF + " is_superset is not covered by the quickcheck properties.",
  ["src/total_vec_set.rs: is_subset, is_superset, is_disjoint"])
p("C33", "Equality of TotalVecSet is extensional",
  "Two total sets over an infinite element type are == iff they contain the same elements; is_empty and is_all are exact. Equal sets feed the same data to a hasher, and different ones (also complements) different data if the elements do.",
  "all pairs of total sets", INF, ["src/total_vec_set.rs: PartialEq, is_empty, is_all, Hash"])
p("C34", "TotalVecSet insert/remove",
  "After insert(x) the set contains x and is otherwise unchanged; after remove(x) it does not contain x and is otherwise unchanged; for both polarities, along any history.",
  "all total sets, all histories", HIST, ["src/total_vec_set.rs: insert, remove"])
p("C35", "TotalVecMap operations are pointwise",
  "(a+b)[k] = a[k]+b[k], likewise sub, mul, div, neg, supremum, infimum, combine_ref and map_values, for every key, stored or not.",
  "all pairs of total maps, all keys, all functions", INF, ["src/total_vec_map.rs: combine_ref, map_values, Add, Sub, Mul, Div, Neg, supremum, infimum, Index"])
p("C36", "TotalVecMap never stores the default value",
  "Whatever public operations produced it, no stored entry of a TotalVecMap has the default value and keys are strictly ascending, so non_default_mappings is exactly the set of keys whose value differs from the default.",
  "every finite history of TotalVecMap operations", HIST, ["src/total_vec_map.rs: new, combine_ref, map_values, non_default_mappings"])
p("C37", "TotalVecMap equality is extensional",
  "Two total maps over an infinite key type are == iff they map every key to the same value, and then have the same hash.",
  "all pairs of total maps", INF, ["src/total_vec_map.rs: PartialEq, Ord, Hash"])
p("C38", "supremum/infimum form a lattice; Zero/One are neutral",
  "supremum and infimum are commutative, associative, idempotent and absorptive; zero() and one() are neutral for + and *; is_zero/is_one recognise exactly the constant zero/one map.",
  "all total maps", INF, ["src/total_vec_map.rs: supremum, infimum, Zero, One, Bounded"])

# ---------------- BTreeMap support
p("C39", "Joins on (archived) BTreeMaps agree with the join specification",
  "outer_join, left_join, right_join, inner_join on BTreeMaps give the same entries as the corresponding VecMap joins.",
  "all pairs of maps, all pure f", INF, ["src/btree_map.rs: AbstractBTreeMap"])
p("C40", "In-place joins on BTreeMap follow the join specification",
  "inner_join_with, left_join_with, right_join_with, outer_join_with leave exactly the entries of the corresponding join.",
  "all pairs of maps, all pure f", INF + " This module has no tests.", ["src/btree_map.rs: InPlaceRelationalOps"])

# ---------------- radix trees
p("C41", "Radix tree lookup, iteration and values agree",
  "iter() of a tree yields each stored key/value pair exactly once in strictly ascending lexicographic key order; get(k) = Some(v) iff iter() yields (k,v); contains_key(k) iff get(k) is Some; values() is the value part of iter().",
  "every valid tree of any depth/width/fragmentation, every key", INF, ["src/radix_tree/mod.rs: find, get, contains_key, Iter, Values"])
p("C42", "A radix tree behaves like a map from key sequences along any history",
  "insert(k,v) makes get(k)=v and changes no other key; collecting pairs gives last-wins; the answers of get after any history of inserts and in-place combinations are those of a map.",
  "every finite history", HIST, ["src/radix_tree/mod.rs: insert, single, leaf, empty", "src/radix_tree/flat_radix_tree.rs: FromIterator"])
p("C43", "outer_combine / union", "get(k) of a.outer_combine(b,f) is f(v,w) if both have k, otherwise the value of whichever has k. union is left-biased. In-place versions agree.",
  "all pairs of valid trees, all pure f, all keys", INF, ["src/radix_tree/mod.rs: outer_combine, outer_combine_with, union, union_with, OuterCombineOp"])
p("C44", "inner_combine / intersection", "get(k) of a.inner_combine(b,f) is f(v,w) if both have k, None otherwise; In-place versions agree.",
  "all pairs of valid trees, all pure f, all keys", INF, ["src/radix_tree/mod.rs: inner_combine, inner_combine_with, intersection, intersection_with, InnerCombineOp"])
p("C45", "left_combine / difference", "left_combine_with applies f exactly to the keys both trees have and keeps the other entries of a; difference removes exactly the keys of b. a.left_combine(b,f) yields f(v,Some(w)) for common keys; for keys of a that b lacks it yields f(v,None) only where the keys of b fork (or b is empty and the key is empty) and keeps v otherwise, so f is not consulted for all keys of a.",
  "all pairs of valid trees, all pure f, all keys", INF, ["src/radix_tree/mod.rs: left_combine, left_combine_with, difference, difference_with, LeftCombineOp"])
p("C46", "Pure and in-place tree combinations give the same tree",
  "union/union_with, intersection/intersection_with, difference/difference_with produce == trees, as do outer/inner combine for corresponding f.",
  "all pairs of valid trees", INF, ["src/radix_tree/mod.rs"])
p("C47", "Radix trees are canonical: equal contents means equal trees",
  "Every tree reachable through the public API is in canonical form, and two such trees with the same key/value pairs are ==.",
  "every finite history of public operations; all pairs of canonical trees", HIST, ["src/radix_tree/mod.rs: split, unsplit, outer_combine_with, ...", "src/radix_tree/flat_radix_tree.rs: PartialEq"])
p("C48", "is_subset, is_superset, intersects, is_disjoint on trees",
  "These decide the corresponding relations between the key sets. On a left operand that is valid but not canonical (validated archive) is_subset never panics and its yes is reliable.",
  "all pairs of trees (left operand of is_subset canonical for the exact answer)", INF, ["src/radix_tree/mod.rs: is_subset0, intersects0, NonSubsetOp, IntersectOp"])
p("C49", "Prefix queries", "filter_prefix(p) contains exactly the entries of the tree whose key starts with p; scan_prefix(p) iterates over exactly these in ascending order; prepend(p) maps each key k to p++k.",
  "all valid trees, all prefixes", INF, ["src/radix_tree/mod.rs: filter_prefix, scan_prefix, prepend"])
p("C50", "Prefix-set operations", "remove_prefix_with(b,f) removes exactly the keys that have a prefix k' in b with f(b[k']); retain_prefix_with(b,f) keeps exactly these.",
  "all pairs of valid trees, all predicates", INF, ["src/radix_tree/mod.rs: remove_prefix_with, retain_prefix_with"])
p("C51", "No reachable tree operation panics and all terminate",
  "On trees reachable through the public API, no operation hits an out-of-bounds prefix()[0], a failed assertion in split / materialize_shortened or an unwrap on None, and the recursion terminates.",
  "all pairs of valid trees, all operations", "A panic on some exotic fragmentation would not be found by sampling.", ["src/radix_tree/mod.rs: Fragment cmp, split, materialize_shortened, unsplit"])
p("C52", "Archive validation of radix trees",
  "check_bytes accepts a tree iff all descendants have non-empty prefixes and siblings are strictly ascending by first element; on every accepted archive get, contains_key, iter agree; archive + deserialise is the identity; relations such as is_subset are only guaranteed on canonical trees, and validation does not imply canonicity.",
  "all archived trees, including adversarial ones", "Untrusted bytes: all trees must be covered.", ["src/radix_tree/flat_radix_tree.rs: CheckBytes, Deserialize", "src/radix_tree/arc_radix_tree.rs"])
p("C53", "Snapshots of ArcRadixTree are isolated",
  "Cloning an ArcRadixTree and mutating either copy (with copy on write of shared child vectors) never changes what the other copy observes.",
  "every sharing pattern in the heap, every sequence of clones, drops and mutations", "Aliasing patterns are unbounded; a test checks a few.", ["src/radix_tree/arc_radix_tree.rs: children_mut, all_arcs, Clone"])
p("C54", "Lazy loading is unobservable",
  "A LazyRadixTree loaded from an archive answers every query like the fully materialised tree, whichever nodes have already been materialised and in whatever order.",
  "every archived tree, every set of already loaded nodes, every order of accesses", "The set of partially loaded states is exponential.", ["src/radix_tree/lazy_radix_tree.rs: Lazy, materialize_shallow, children_arc"])
p("C55", "Lazy cells initialise once under every schedule",
  "With any number of threads calling get / get_or_create / clone on one cell, in every interleaving, the initialiser runs at most once, every get_or_create returns the initialised value, and the value never changes afterwards.",
  "every number of threads, every interleaving of lock/read/write/unlock steps", "Schedules cannot be enumerated by tests.", ["src/radix_tree/lazy_radix_tree.rs: Lazy::get_or_create, get, clone"])
p("C56", "RadixDb: what was flushed is what is loaded, across failures and crashes",
  "After any history of tree programs, flushes and vacuums (each with any outcome of its storage operations) and restarts: no operation gets stuck, programs observe what plain trees would, and opening the file again yields the tree of the last successful flush/vacuum; a vacuum that fails or crashes at any point loses nothing; a flush whose append wrote nothing loses nothing, one that wrote everything is complete, one that wrote a part makes the file unreadable until the next successful save. The address registry never refers to freed or changed memory, nothing leaks, flush writes exactly the child vectors not in the file yet (only the root if nothing changed, also after a restart), vacuum writes each live child vector exactly once, and load restores sharing.",
  "every history of programs, saves with every storage outcome and crash point, and restarts; every tree and sharing structure", "Histories x crash points x sharing structures are unbounded, and the registry is keyed by memory addresses.", ["examples/radix_db.rs: RadixDb::load, flush, vacuum", "src/radix_tree/arc_radix_tree.rs: all_arcs"])
p("C57", "In-place merging moves every element exactly once",
  "In every in-place operation each element of the two inputs is either moved to the result or dropped exactly once: nothing is leaked, duplicated or read from uninitialised slots of the buffer.",
  "all inputs of all in-place merges, all interruption points", "Memory-safety style property of unsafe code in all states of the buffer.", ["src/merge_state.rs: InPlaceMergeState, InPlaceSmallVecMergeStateRef", "inplace-vec-builder"])
p("C58", "Equality, ordering and hashing of VecMaps",
  "Two VecMaps are == iff they have the same keys with equal values under them, however they were built; cmp is a total order and two maps compare as Equal only if their entries compare as Equal pairwise. Equal maps feed the same data to a hasher, and different maps different data if the entries do; a map hashes like the slice of its entries.",
  "every pair/triple of maps reachable through the API", INF, ["src/vec_map.rs: PartialEq, Eq, PartialOrd, Ord, Hash"])
p("C59", "Shared child vectors are neither leaked nor freed early",
  "In every state reachable by cloning, converting, mutating and dropping ArcRadixTrees and LazyRadixTrees, every child vector that can be reached is alive, its strong count is exactly the number of owners, and every live child vector can be reached from a live tree (or is the shared static empty vector).",
  "every program over the tree interface, every sharing pattern", "Sharing patterns and histories are unbounded; leaks do not fail tests.", ["src/radix_tree/arc_radix_tree.rs: wrap_in_arc, empty_arc, children_mut, Clone", "src/radix_tree/lazy_radix_tree.rs: children_arc, children_arc_mut"])
p("C60", "Lookups need a logarithmic number of comparisons",
  "contains, insert and remove of a set and get, insert of a map (and indexing a TotalVecMap) call the comparison at most log2(n)+2 times on a collection of n elements, as the O(log N) documentation promises for lookups.",
  "every collection of every size, every key", "A cost bound must hold for every input; a test measures some.", ["src/vec_set.rs: contains, insert, remove", "src/vec_map.rs: get, insert", "src/total_vec_map.rs: index"])
p("C61", "Collecting does quasi-linear work, and linear work on ordered input",
  "Collecting N items hands slices of total length at most 3N (each at most N) to sort_by and makes at most 4N other comparisons, so with an n*g(n) sort the total is at most 4N+3N*g(N), within the documented O(N log^2 N); items that arrive in order (duplicates allowed) cost exactly N-1 comparisons and no sorting.",
  "every sequence of items, in every order and with every pattern of duplicates", "Amortised bounds quantify over all sequences.", ["src/dedup.rs: SortAndDedup::push, sort_and_dedup, sort_dedup_by", "src/vec_set.rs: FromIterator"])
p("C62", "Merges need few comparisons",
  "Every merge (set operations, set relations, joins; by reference or in place) of n with m elements makes at most n*(log2(m)+2) comparisons; if the two sets do not overlap, at most (log2(n)+1)*(log2(m)+2). In all cases, with l and h the smaller and the larger of n and m, at most l*(2*(log2(h)-log2(l))+10), which is at most 14 times the number of comparisons that any program that merges n with m elements by comparing them makes on some input.",
  "every merge operation on every pair of inputs", "A cost bound must hold for every input; a test measures some.", ["src/merge_state.rs: merge", "src/vec_set.rs: union, intersection, difference, symmetric_difference, is_subset, is_disjoint"])
p("C63", "The construction macros insert left to right",
  "`vecset!` yields a strictly ascending set containing, for every group of equal items, the one written last (`collect` keeps the first), and compares equal to the collected set; `vecmap!` yields exactly the map that collecting the same pairs yields, so the last value written for a key wins.",
  "every list of macro arguments, every lawful order including orders that identify distinguishable values",
  "The expansion is arity-generic and the difference to collect only shows on equal but distinguishable items; tests use integers.",
  ["src/macros.rs:vecset", "src/macros.rs:vecmap"])
p("C64", "Keys handed out by a radix tree iterator never change",
  "Iterating a radix tree shares one key buffer between the iterator and the keys it has handed out. Whatever the client does with the keys it got (keep, clone, drop, read later, even after dropping the iterator) it sees exactly what it would see if each key were a separate value; no buffer is leaked or read after being freed; the number of buffers allocated is at most one plus the number of entries yielded, and a client keeping no keys causes no copies.",
  "every tree, starting prefix and interleaving of iteration steps with client operations on keys",
  "Depends on the interleaving of advancing the iterator with clones and drops of earlier keys; tests collect immediately or drop at once.",
  ["src/radix_tree/mod.rs:IterKey", "src/radix_tree/mod.rs:Iter::next", "src/radix_tree/mod.rs:KeyValueIter"])
p("C65", "Values from consuming iteration stay readable",
  "The values that `into_iter` of a radix tree yields (typed as references with static lifetime) can be read for as long as the client holds them. This holds, and they are the values of the entries in ascending key order, while the iterator is alive; it is false after the iterator is dropped, where every such reference dangles.",
  "every valid tree and every sequence of iteration steps, reads and drops",
  "A use-after-free usually reads the old bytes, so a test passes; and it must be excluded for every order of drop and read.",
  ["src/radix_tree/mod.rs:into_iter", "src/radix_tree/mod.rs:ObjAndIter"])
p("C66", "Set and map iterators are ascending, exact and fused",
  "After any number of calls of next, the iterators of sets and maps have returned the first elements in strictly ascending order, each exactly once; size_hint is exactly the number of remaining elements; once exhausted they stay exhausted; everything returned later is greater than everything returned before (what SortedIterator promises to the merge code).",
  "every set or map reachable through the API, every number of calls",
  "Exactness must hold at every intermediate moment of every iteration.",
  ["src/iterators.rs:SliceIterator", "src/vec_set.rs:VecSetIter", "src/vec_set.rs:iter", "src/vec_set.rs:into_iter", "src/vec_map.rs:iter"])
p("C67", "Multimaps built from maps of sets behave as relations",
  "The multimaps of the example, built from VecMap and VecSet by combine_with and union: collecting and combining never panics; a key and value are related iff the pair was listed or related in either operand; no key carries an empty set; in a bidirectional multimap the two indices always describe the same relation.",
  "every list of pairs, every multimap history, every lawful pair of orders",
  "Compositional use of the library: holds for all histories of collect and combine.",
  ["examples/multimap.rs:Multimap", "examples/multimap.rs:BiMultimap"])
p("C68", "Storages keep their documented contract",
  "Append adds at the end (an empty chunk is a no-op), load shows the contents (missing is like empty and stays missing), move atomically overwrites the target and a missing source deletes it; operations return Ok and touch no other file. MemStorage keeps this in every history, and when its clones are used by several threads the calls are linearizable and cannot deadlock. FileStorage keeps it for every system call failure in that an operation returning Ok did what the contract says and one returning an error changed nothing except that a failed append may have appended a prefix. The full contract is false of FileStorage: moving a missing file to a missing name returns an error. What the database's flush and vacuum do to its files is what the storage does on their calls.",
  "all contents, histories, faults of system calls, thread programs and schedules",
  "Needs every interleaving and every failing system call, and the contract's corner cases (missing source and missing target) for all names.",
  ["examples/radix_db.rs:Storage", "examples/radix_db.rs:MemStorage", "examples/radix_db.rs:FileStorage"])
p("C69", "Watchers get every saved tree, prefix watchers a batch for each",
  "A receiver obtained from watch gets exactly the trees that were current at the successful flushes and vacuums after its subscription, each once and in order; failed saves send nothing; a dropped receiver's sender is released at the next successful save. The stream of watch_prefix never panics and gives one batch per saved tree: added are the entries under the prefix whose key was absent at the subscription, removed those present at the subscription whose key is gone (so batches are relative to the subscription, not to the previous batch).",
  "all histories of changes, saves, failures, subscriptions, receptions and drops; all trees and prefixes",
  "Quantifies over interleavings of several receivers with saves.",
  ["examples/radix_db.rs:watch", "examples/radix_db.rs:watch_prefix", "examples/radix_db.rs:notify", "examples/radix_db.rs:Batch"])
p("C70", "In-place radix combinations whose closure panics",
  "outer_combine_with, inner_combine_with and left_combine_with panic exactly if the closure panics for the values of some common key. A caller that catches the panic has a valid tree: if the very first call panicked, the original tree with only that value changed; otherwise exactly those entries of the complete result that come before the smallest panicking key and lie in another branch below the longest common prefix of all the keys. No key is invented. The operation is not atomic: entries of keys that the other tree does not have may be lost and the tree may fail to be canonical (differ from a tree with the same entries).",
  "all valid trees and all closures that panic for an arbitrary set of pairs of values",
  "Needs every tree shape and every possible position of the panic.",
  ["src/radix_tree/mod.rs:outer_combine_with", "src/radix_tree/mod.rs:inner_combine_with", "src/radix_tree/mod.rs:left_combine_with", "src/merge_state.rs:InPlaceMergeState"])
p("C71", "Databases on one storage are independent if their names are apart",
  "Any number of RadixDb values on one storage, opened at any time, whose names are pairwise different and none of which is another one followed by '.tmp', do not influence each other: with any interleaving of their operations (succeeding or failing), programs and restarts, each observes, shows and stores what it would alone, and can be opened again with its durable tree. Without this condition data is lost: two values with the same name, or a database x and a database x.tmp.",
  "all interleavings of all histories of any number of databases with any names",
  "Interleavings and histories are unbounded; the interference appears only for particular names and orders.",
  ["examples/radix_db.rs:RadixDb::load", "examples/radix_db.rs:flush", "examples/radix_db.rs:vacuum", "examples/radix_db.rs:Storage"])
p("C72", "A rename that took place although it reports an error",
  "If the rename in vacuum takes place but the storage reports an error, nothing is lost: opening the file gives the tree of that moment, the program continues undisturbed, and the next successful vacuum or a restart returns to normal, whatever programs and failing vacuums come in between. A flush before that corrupts the file although it reports success.",
  "all histories of programs, flushes, vacuums (with every outcome, including the late error) and restarts",
  "Error injection at every point of every history.",
  ["examples/radix_db.rs:vacuum", "examples/radix_db.rs:flush"])
p("C73", "Tree operations on shared, lazily loaded nodes",
  "A program makes any calls on any number of ArcRadixTree (or LazyRadixTree) handles: it creates, loads, clones and drops them, changes one by insert, prepend or the combining operations with another one, derives new ones by filter_prefix and the pure combinations, and queries them. Each operation, executed step by step on the reference counted heap where handles share nodes and archived nodes are loaded on demand, has the effect it has on independent maps; queries answer from these maps; a snapshot never changes; all flavours of trees give the same trees node for node; no temporary is leaked and after the last drop nothing is left.",
  "all histories of calls on any number of handles, all trees, keys, values and closures, all validated archives",
  "Sharing patterns and the order in which nodes are loaded depend on the whole history; unit tests cover a few operations on fresh trees.",
  ["src/radix_tree/mod.rs:AbstractRadixTree", "src/radix_tree/mod.rs:AbstractRadixTreeMut", "src/radix_tree/arc_radix_tree.rs", "src/radix_tree/lazy_radix_tree.rs"])
p("C74", "Several threads on trees that share structure",
  "Any number of threads call the primitive operations of ArcRadixTree (or LazyRadixTree) on their variables, at the same time as far as Rust's borrow rules allow it, while the trees behind the variables share nodes. In whatever order the threads' individual accesses to memory are interleaved (reference count updates, the uniqueness check of copy on write, copying, freeing, loading), every completed call observes what it would have observed if all calls had been executed one after the other on independent trees, and variables hold what they would hold then. No thread accesses freed memory or a vector that another thread has exclusive access to; reference counts are exact at every moment; when no call is under way nothing is leaked; and every call completes within a number of its own steps that depends only on its tree and path.",
  "all numbers of threads and variables, all schedules of calls and of single memory accesses, all trees, paths and values, both flavours",
  "Races in copy on write (a clone dropped between the uniqueness check and the copy, two threads copying the same vector, the last drop during a copy) need particular interleavings that a test cannot force, and there are infinitely many schedules.",
  ["src/radix_tree/arc_radix_tree.rs:ArcRadixTree", "src/radix_tree/arc_radix_tree.rs:children_mut", "src/radix_tree/lazy_radix_tree.rs:LazyRadixTree", "src/radix_tree/lazy_radix_tree.rs:children_mut", "src/radix_tree/mod.rs:AbstractRadixTreeMut"])

p("C75", "A comparison function that obeys no law",
  "The element type's comparison is user code: it may answer inconsistently, remember earlier calls, and panic. Whatever it does, no method of VecSet and VecMap (lookups, insert, remove, get_mut, collecting, the set operations and joins by reference and in place, the subset and disjointness tests) causes undefined behaviour, loses track of an element (every element of the operands is in the result or dropped exactly once) or invents one; a panic always comes from user code; intersection and difference yield a subsequence of the left operand, a completed union contains it; and an assigning operator leaves exactly what the by-reference operator returns and asks the same questions. If the comparison only panics but never answers wrongly, then a call that returns has its usual effect, an interrupted insert or remove has changed nothing, an interrupted assigning operator leaves a prefix of its usual result, and through any history of calls with caught panics the set stays a valid set.",
  "all comparison functions (with any internal state), all states of the comparison, all sets and maps (also unsorted ones), all closures and converters, all reallocation policies, all histories with caught panics",
  "An adversarial comparison has unboundedly many behaviours (an arbitrary answer or a panic at each of its calls); tests and miri runs try a few.",
  ["src/vec_set.rs: contains, insert, remove, FromIterator, BitOr/BitAnd/BitXor/Sub and their Assign versions, Extend", "src/vec_map.rs: get, get_mut, insert, outer_join .. inner_join_with", "src/dedup.rs: sort_dedup_by, SortAndDedup, dedup_by", "src/merge_state.rs: InPlaceMergeState, InPlaceSmallVecMergeStateRef, SmallVecMergeState, BoolOpMergeState"])
p("C76", "Recursion of radix trees is as deep as keys are long, not as trees are large",
  "Combining two trees, or relating them (intersects, is_subset), recurses to a depth of at most n+1 if the keys of one of the two trees have at most n components; looking up or inserting a key recurses at most one deeper than that key is long; everything that follows the structure of a tree (drop, clone, compare, save), and the stack of an iterator, is nested at most n+1 deep. The number of entries does not matter.",
  "every pair of trees, every key, every operation, every moment of an iteration",
  "A stack overflow on some large tree would not be seen on small ones; the bound must hold for all sizes.",
  ["src/radix_tree/mod.rs: outer_combine_with, inner_combine_with, left_combine_with, remove_prefix_with, retain_prefix_with, outer_combine, inner_combine, left_combine, is_subset0, intersects0, find, Iter, Values"])
p("C77", "A radix tree lookup costs as much as the key is long",
  "get, contains_key, scan_prefix and filter_prefix find their node with at most length-of-key equality tests of key components and at most length-of-key * (log2 w + 2) order comparisons, where w bounds the number of children of a node (or the number of different key components, 256 for bytes), independently of the number of entries.",
  "every tree and every key",
  "A cost bound must hold for every input; a test measures some.",
  ["src/radix_tree/mod.rs: find, common_prefix"])
p("C78", "Radix trees use linear space and are iterated in linear time",
  "A tree built with the public interface that holds m > 0 entries has at most 2m-1 nodes, which together hold at most as many key components as the keys; a complete iteration (keys and values, or values only) takes exactly three turns of its loop per node.",
  "every tree that any sequence of operations can produce",
  "The bound depends on every operation keeping trees free of superfluous nodes.",
  ["src/radix_tree/mod.rs: unsplit, Iter::next, Values::next"])
p("C79", "Archives from untrusted sources are validated without leaving the buffer",
  "check_bytes on an archived radix tree, set or map in an arbitrary buffer (pointers anywhere, overlapping or self-containing vectors, bytes that are no values) ends with acceptance or rejection and reads nothing outside the buffer or of the wrong type. What is accepted is a valid tree (strictly ascending set or map) lying in the buffer, of no more bytes than the buffer has; reading and deserializing it stays in the buffer. Archives written by the crate, at any position, are accepted and read back as the tree written. Finding: for trees the first sentence is false, because children are looked at before the pointer to them is checked.",
  "all buffers (arbitrary readings of every position as key or node), all pointers and lengths, all sizes and alignments, all trees, all start positions",
  "The attacker chooses the bytes; tests can only try a few corruptions, and reading out of bounds often goes unnoticed.",
  ["src/radix_tree/flat_radix_tree.rs: CheckBytes::check_bytes, Serialize, resolve, Deserialize", "src/vec_set.rs: CheckBytes for ArchivedVecSet", "src/vec_map.rs: CheckBytes for ArchivedVecMap"])
p("C80", "When and on what the joins call the user's closure",
  "A closure handed to a join, to combine_with, to map_values or to a TotalVecMap combinator may count, log, depend on its earlier calls and panic. outer_join calls it exactly once on every key that is in a or in b, left_join on every entry of a, right_join on every key of b, inner_join on the common keys, combine_with on the collisions, always by strictly ascending key and with the values stored under that key, and TotalVecMap's combinators first on the defaults. After a panic no further call is made; the in-place versions then leave exactly the entries answered so far, a valid map. The result consists of the answers, in order, under the keys they were given for; it does not depend on how the merge is scheduled.",
  "all maps, all closures with any internal state and any panics, all merge schedules",
  "The closure's state makes the whole sequence of calls observable; tests see the sequence for a few inputs and seldom a panic in the middle.",
  ["src/vec_map.rs: outer_join, left_join, right_join, inner_join, outer_join_with, left_join_with, right_join_with, inner_join_with, combine_with, map_values", "src/total_vec_map.rs: combine_ref, map_values", "src/binary_merge.rs: merge, binary_merge"])
p("C81", "When and on what the BTreeMap joins call the user's closure, and what a panic leaves behind",
  "outer_join of BTreeMaps calls its closure first on every entry of the left map by ascending key and then on the entries only the right map has; left_join on the left map's entries; right_join and inner_join walk the right map and hand over its keys. Each argument is offered exactly once, no call follows a panic, and a completed join contains exactly the answers. The in-place joins call in the documented order too (outer_join_with: the right map's keys first, then the left-only ones); at every moment, and so also after a panic, the map has strictly ascending keys, every key a call was about has what that call left (also the one that panicked after writing to the value), and every other key has its old value, except that inner_join_with has removed the partnerless keys up to the point of interruption. Existing keys are kept as stored.",
  "all pairs of maps, all closures with internal state, mutation through &mut V and panics at any call",
  "The sequence of calls and the state after a panic depend on every input and on the closure's whole history.",
  ["src/btree_map.rs: outer_join, left_join, right_join, inner_join, inner_join_with, left_join_with, right_join_with, outer_join_with"])
p("C82", "When and on what the in-place radix tree combinations call the user's closure, and what a panic leaves behind",
  "outer_combine_with, inner_combine_with and left_combine_with call their closure exactly once for each key both trees have, on the two values stored there, in ascending lexicographic order of the keys, and never after a panic. Without a panic the tree afterwards has, under every such key, what its call left (nothing, if the call answered false), plus the entries only one tree has (outer), or only the left tree has (left); canonical trees stay canonical. After a panic the tree is still a valid radix tree: either the panicking call was the first one, for the smallest key of all, and the tree is the old one with that value as written, or the tree holds exactly what a complete run would hold for the keys before the panicking one, except those in the panicking key's branch below the keys' common prefix.",
  "all pairs of valid radix trees (left and right value types may differ), all closures with internal state, mutation through &mut V and panics at any call",
  "The order of the calls follows from a recursive merge driven by galloping search; each call may change the outcome of all later ones, and a panic may come at any call.",
  ["src/radix_tree/mod.rs: outer_combine_with, inner_combine_with, left_combine_with, outer_combine_children_with, inner_combine_children_with, left_combine_children_with, OuterCombineOp, InnerCombineOp, LeftCombineOp, split, unsplit"])
p("C83", "When and on what the radix tree combinations into a new tree call the user's closure",
  "outer_combine and inner_combine call their closure exactly once for each key both trees have, on the two values stored there, in ascending lexicographic order of the keys; left_combine additionally calls it, with None, for those keys of the left tree that the right tree lacks but at which the right tree's keys fork, and for no other key. No call follows a panic; a panic loses the new tree. Otherwise the new tree has exactly the answers under the keys they were given for, plus the entries only one tree has (outer), or the left tree's entries the closure was not asked about (left); it is canonical if the inputs are.",
  "all pairs of valid radix trees (for left_combine the right one canonical), all closures with internal state and panics at any call",
  "The order of the calls follows from a recursive merge driven by galloping search; each answer may depend on all earlier calls.",
  ["src/radix_tree/mod.rs: outer_combine, inner_combine, left_combine, OuterCombineOp, InnerCombineOp, LeftCombineOp, union, intersection, difference"])
p("C84", "When and on what remove_prefix_with and retain_prefix_with ask the user's predicate, and what a panic leaves",
  "remove_prefix_with and retain_prefix_with ask their predicate about exactly those entries of the right tree whose key is a prefix of some key of the left tree (or empty) and does not continue a key the predicate has already said yes to: once each, by ascending key. Without a panic the left tree keeps exactly its entries whose key does not continue (retain: does continue) a key answered yes, in canonical form. If the predicate panics no further question is asked and the left tree stays valid: if the very first question was about the smallest possible key the tree is unchanged; otherwise it holds what a complete run would have kept among the keys before the one asked about, except those that share the next component (after the prefix common to both trees) with that key. For predicates without side effects this is C50.",
  "all canonical left trees, all valid right trees, all predicates with internal state and panics at any call",
  "Which entries are asked about depends on all earlier answers and on a recursive merge driven by galloping search; the state after a panic depends on where in the recursion it happens.",
  ["src/radix_tree/mod.rs: remove_prefix_with, retain_prefix_with, RemovePrefixOp, RetainPrefixOp, split, unsplit"])
p("C85", "Combining two radix trees costs no more than walking the smaller one",
  "outer/inner/left_combine(_with), union, intersection, difference, remove_prefix_with and retain_prefix_with test no more pairs of key components for equality than either tree stores, make at most a logarithmic factor times (nodes + components) of either tree order comparisons, and sort at most two children per node of either tree; inserting a key makes at most length-of-key tests and 2*(length+1)*(log2 w + 1) comparisons whatever the size of the tree. is_subset and intersects make at most as many tests as both trees together store components; and they do scan children one after the other (w tests against a single key), unlike a lookup.",
  "every pair of trees, every closure, every key",
  "A cost bound must hold for every pair of inputs; a test measures some.",
  ["src/radix_tree/mod.rs: outer_combine_with, inner_combine_with, left_combine_with, remove_prefix_with, retain_prefix_with, outer_combine, inner_combine, left_combine, is_subset0, intersects0, insert"])
p("C86", "Radix trees whose key components have an Ord and Eq that obey no law",
  "Whatever `==` and `cmp` of the key components do (contradict themselves or each other, remember earlier calls, panic), every radix tree operation ends in a value or a panic, without undefined behaviour, and the values left in the tree (also after a panic) are values that were put in, none twice. If `==` never denies what `cmp` calls Equal, every panic is one of user code and trees stay usable after a caught panic. If the components compare like a total order whenever they answer, every call that returns has the right result, and a panic leaves a valid tree with entries of the old tree or of the intended result, unless sorting two new children panicked. (Findings: components equal for `cmp` but not for `==` produce a tree that panics for ever after; a panic inside the sort of `insert` leaves a tree that no longer finds an old key.)",
  "every pair of implementations of Eq and Ord, every tree, every history of calls with caught panics, every panic point",
  "No test can try all misbehaving implementations of Eq and Ord or all points at which they panic.",
  ["src/radix_tree/mod.rs: insert, outer_combine_with, inner_combine_with, left_combine_with, remove_prefix_with, retain_prefix_with, outer_combine, inner_combine, left_combine, is_subset, intersects, get, filter_prefix, common_prefix, find"])
p("C87", "Archives of trees that share vectors of children: validation, reading, writing, reopening",
  "Validating an archive of an `ArcRadixTree`/`LazyRadixTree` always ends. What is accepted can be walked down from the root to any depth without leaving the buffer, with the children of every node in order and with non-empty prefixes; if it contains no cycle it is a valid tree that can be deserialized. Reading and deserializing yield the tree in the buffer, deserializing with exactly the sharing of the archive. Writing a valid tree with a fresh serializer yields an archive that is accepted and deserialized to the tree with the same sharing. Any number of trees written with one serializer can afterwards all be read, every shared vector is written once; the same after closing and opening again with the registry reconstructed from the deserializer. Wanted but false: validation never reads outside an arbitrary buffer. (Findings: validation accepts archives with cycles, which never finish deserializing; it rejects correct archives of a second tree written with the same serializer; small accepted archives stand for exponentially large trees.)",
  "every buffer (arbitrary contents and pointers), every position, every tree with any sharing, every number of trees written before, every layout",
  "Tests try a few archives; the buffer is arbitrary input, and sharing patterns and histories of writes are unbounded.",
  ["src/radix_tree/arc_radix_tree.rs: CheckBytes::check_bytes, Archive::resolve, Serialize::serialize, Deserialize::deserialize, AbstractRadixTree for ArchivedArcRadixTree", "src/radix_tree/lazy_radix_tree.rs: Archive, Serialize, AbstractRadixTree for ArchivedLazyRadixTree", "examples/radix_db.rs: RadixDb::load, RadixDb::flush"])
p("C88", "TotalVecSet and TotalVecMap with a comparison that obeys no law or panics",
  "Whatever the `Ord` implementation answers, and whenever it (or `Clone`) panics, operations on `TotalVecSet` and `TotalVecMap` are free of undefined behaviour, panic only if user code panics, list only elements and keys of the operands, and give a result the right flag or default. If the comparison answers like a total order except that it may panic at any moment, then a call that returns has its usual effect, a failed insert or remove has none, and a failed assigning operator leaves a valid set that lists a prefix of the elements of the intended result but keeps the old flag; through any history of calls with caught panics the set stays valid. (Finding: as the flag is assigned last, a caught panic in an operator that changes the flag leaves a part of the complement of the intended set, or a superset of that complement.)",
  "every comparison function with any state, answers and panics; all sets and maps, all four operators and combinations of flags, all histories with caught panics",
  "The comparison is arbitrary user code; tests use lawful orders that never panic.",
  ["src/total_vec_set.rs: contains, insert, remove, is_subset, is_superset, is_disjoint, BitAnd, BitOr, BitXor, Sub, BitAndAssign, BitOrAssign, BitXorAssign, SubAssign", "src/total_vec_map.rs: Index::index, combine_ref"])
p("C89", "In-place radix tree combinations when clone of a value panics or returns something else",
  "Whatever `V::clone` does (side effects, wrong values, panics), whatever the closures do, and whether or not the children are shared with other trees, `outer_combine_with`, `inner_combine_with`, `left_combine_with`, `remove_prefix_with`, `retain_prefix_with`, `insert` and `union_with` leave a valid tree, also after a panic, in which every entry is made from values the operands had under that same key. If `clone` returns equal values as long as it returns, then either the call does exactly what it does with ideal clones, or a clone panicked and the tree holds its old entries, with at most the value of the node at the common prefix of its keys settled already, or the entries of the intended result up to some key and none after it, or all of them. (Finding: in the second case entries the tree had before the call are lost.)",
  "all pairs of trees, every `Clone` implementation with any state, results and panics, every pattern of sharing, every closure and predicate",
  "Clone is arbitrary user code; tests clone integers and strings, which never panics.",
  ["src/radix_tree/mod.rs: outer_combine_with, inner_combine_with, left_combine_with, remove_prefix_with, retain_prefix_with, insert, union_with, materialize_shortened, RadixTreeConverter", "src/radix_tree/arc_radix_tree.rs: children_mut", "src/radix_tree/lazy_radix_tree.rs: children_mut"])
p("C90", "Which elements and keys are cloned, in which order, and what a panicking or lying clone leaves behind",
  "Whatever `T::clone` does (side effects, wrong values, panics): `&a | &b`, `&a & &b`, `&a ^ &b` and `&a - &b` on `VecSet` clone exactly the elements of the result, each once, by ascending element, the left set's element where both have it, until a clone panics, and the result consists of these clones. `a |= &b` and `a ^= &b` clone exactly those elements of `b` that `a` has no equal of, and leave in `a`, also after a panic, its own elements and the clones made up to then (finding: elements of `a` above the one whose clone panicked are lost). `a &= &b` and `a -= &b` clone nothing. The joins of `VecMap` into a new map clone each key once, right after the closure has answered `Some` for it and before it is called again; `outer_join_with` and `right_join_with` clone only the keys that the right map alone has. If clones equal their originals, a set is left strictly ascending also by a panic.",
  "all pairs of reachable sets or maps, every `Clone` implementation with any state, results and panics, every closure (sharing its state with `Clone`)",
  "Clone is arbitrary user code; tests clone integers, which has no effects, never panics and cannot be counted.",
  ["src/vec_set.rs: union, intersection, symmetric_difference, difference, BitAnd, BitOr, BitXor, Sub, BitAndAssign, BitOrAssign, BitXorAssign, SubAssign", "src/merge_state.rs: SmallVecMergeState, InPlaceSmallVecMergeStateRef, CloneConverter", "src/vec_map.rs: outer_join, left_join, right_join, inner_join, outer_join_with, right_join_with"])
p("C91", "What cloning a container, the operators on total sets and maps, and the joins of BTreeMap clone, in which order",
  "Whatever `clone` does (side effects, wrong values, panics): `Clone` of `VecSet`, `VecMap`, `TotalVecSet` and `TotalVecMap` and `!&a` clone every element (or entry, the key before the value; a total map's default last) exactly once and in order until a clone panics. `&a & &b`, `&a | &b`, `&a ^ &b` and `&a - &b` on total sets clone exactly the elements the result must list as exceptions, each once and by ascending element (the left set's element where both list it, but for `&` and `|` of two complements the right set's). `combine_ref`, `map_values`, `supremum` and `infimum` first settle the default, and clone a key only after the value computed for it differs from that default. The joins of two `BTreeMap`s clone the key the closure was given once after each answer `Some` and before the next call, and insert under the clone.",
  "all reachable total sets and maps and all ascending BTreeMaps, every `Clone` implementation with any state, results and panics, every closure (sharing its state with `Clone`)",
  "Clone is arbitrary user code; tests clone integers, which has no effects, never panics and cannot be counted.",
  ["src/total_vec_set.rs: Clone, BitAnd, BitOr, BitXor, Sub, Not", "src/total_vec_map.rs: Clone, combine_ref, map_values, supremum, infimum", "src/vec_set.rs: Clone", "src/vec_map.rs: Clone", "src/btree_map.rs: outer_join, left_join, right_join, inner_join"])
p("C92", "Sets and maps allocate only when the elements do not fit",
  "For a `VecSet` or `VecMap` with inline capacity N: `&a | &b`, `&a & &b`, `&a ^ &b`, `&a - &b`, the four joins by reference, `single`, `clone`, `insert`, `map_values` and the conversions from `BTreeSet`/`BTreeMap` leave the result inline if it has at most N elements and otherwise in a buffer less than twice too large. `&=`, `-=`, `left_join_with` and `inner_join_with` never touch the buffer. `|=` and `extend` grow it exactly if the result does not fit, `^=` only if the union does not fit, `outer_join_with`, `right_join_with`, `combine_with` and `merge_with` only if the left map plus the keys only the right map has do not fit; then to at most four times what is needed. `collect` allocates nothing if the announced size fits and there are at most N items, or the items are in order and the result fits, or 16 and twice the result fit; its memory is bounded by the result, and a collected set is inline afterwards if its elements fit. Deserializing allocates nothing if the declared length (if any) and the elements received fit. Over any history of in-place operations, a set that never needs more than N elements never leaves inline storage. (Findings: `^=` and `collect` may allocate although the result fits, a collected map may stay on the heap although it fits, and deserializing trusts the declared length.)",
  "all inputs, inline capacities, claimed sizes, closures and histories of operations",
  "The documentation promises it, no test observes allocations, and whether a reserve happens depends on the interleaving of the operands.",
  ["src/vec_set.rs: docs, BitAnd.., BitAndAssign.., insert, FromIterator, Extend, visit_seq", "src/vec_map.rs: joins, FromIterator, Extend, insert, visit_map", "src/merge_state.rs: SmallVecMergeState, InPlaceMergeState", "src/dedup.rs: SortAndDedup"])
p("C93", "Lookups through a borrowed form of the key",
  "`VecMap::get`, `get_mut` and `[]` of `TotalVecMap` take a `&Q` with `K: Borrow<Q>`. Whatever `borrow` and the order of `Q` do, a lookup never panics, any value found is stored under a key whose borrowed form compares equal to the one asked for, and `get_mut` finds the same entry as `get` and changes nothing else. If `borrow` never reverses the order of two keys, a value is found exactly if some key's borrowed form equals the one asked for; if it preserves the order (the contract of `Borrow`), the value is the one stored under that key, and `[]` on a total map gives it or the default.",
  "all maps the API can build (the first part: all maps), all borrowed types, orders and `Borrow` implementations, all keys",
  "Borrow and Ord are user code; tests look up integers by themselves.",
  ["src/vec_map.rs: AbstractVecMap::get, VecMap::get_mut", "src/total_vec_map.rs: Index<&Q>"])
p("C94", "Copy on write: what is copied, loaded and created",
  "In trees whose vectors of children are shared (`ArcRadixTree`, `LazyRadixTree`) or still to be loaded from an archive (`LazyRadixTree`), the in-place operations leave the contents they would leave without sharing, and copy at most one vector per key component of the other tree plus one, with at most as many clones of nodes each as a node can have children, however large the tree itself; inserting or removing one key copies at most one vector per component of that key plus one. A lookup and taking the part below a prefix copy and create nothing and load at most one vector per component (plus one); looking up the same key again loads nothing. Over any number of in-place operations and lookups on a tree that is not cloned in between, every vector of it is copied at most once and loaded at most once. In any program that clones trees, changes them by single keys, looks up, takes parts and drops, the total of vectors copied, loaded and created depends on the lengths of the keys only, not on the sizes of the trees, and every tree has the contents it would have if cloning copied everything. (Finding: an insertion can load all siblings of the key's place, because every child is asked whether it is empty, and a union can copy the other tree once for every node above it.)",
  "all valid trees in any state of sharing and loading, all operands and closures, all programs of these operations on any number of trees",
  "Costs and sharing are not observable through the API's results; tests check contents of small trees.",
  ["src/radix_tree/mod.rs: outer_combine_with, inner_combine_with, left_combine_with, remove_prefix_with, retain_prefix_with, insert, unsplit, split, get, find, filter_prefix", "src/radix_tree/arc_radix_tree.rs: children_mut", "src/radix_tree/lazy_radix_tree.rs: children, children_mut"])
p("C95", "Iterations that are stopped early stay cheap and lazy",
  "In a radix tree whose keys have at most d components, getting the first j entries or values from `iter()` or `values()` takes at most 6 j + 2 (d + 1) turns of the loop in `next` and loads at most 2 j + d + 1 vectors of children of a lazily loaded tree, however many entries the tree has; nothing is copied or created. `scan_prefix` loads at most as many more as the prefix has components. An iteration, complete or not, loads no vector twice and none that is loaded already. What has come when the iteration stops is the beginning of the complete enumeration, and every beginning is reached.",
  "all trees the operations build in any state of loading, all prefixes, all points at which the iteration stops",
  "The cost of a partial iteration and lazy loading are not visible in results; tests iterate small trees to the end.",
  ["src/radix_tree/mod.rs: Iter, Values, iter, values, scan_prefix", "src/radix_tree/lazy_radix_tree.rs: children"])
p("C96", "Relations of lazily loaded radix trees load little; combinations into a new tree may load everything",
  "`is_subset`, `is_superset`, `intersects` and `is_disjoint` look at the children of at most as many nodes of each radix tree as the other tree has key components, plus one, so that they load at most that many vectors of children of a lazily loaded tree, however large it is; asking for one key looks at at most one node more than it has components. `inner_combine` and `intersection` look at the children of each node at most once; but where the other tree has a node in the middle of a prefix they look at all nodes below, even if the result is empty (`intersects` does not). `outer_combine` and `union` look at the children of every node of both operands exactly once, `left_combine` and `difference` at those of every node of the left operand exactly once and of every node of the right one at most once. Of their operand, `outer_combine_with` and `union_with` look at the children of every node exactly once, the other in-place operations at those of each node at most once, and where the changed tree has a node in the middle of a prefix of the operand, `intersection_with` and `difference_with` look at all nodes below for nothing.",
  "all pairs of trees the operations build (the intersection: all trees), all value types, all combine functions, all keys",
  "Lazy loading is not visible in results, and tests use small trees.",
  ["src/radix_tree/mod.rs: is_subset, intersects, inner_combine, intersection, outer_combine, union, left_combine, difference, materialize_shortened, outer_combine_with, inner_combine_with, left_combine_with, remove_prefix_with, retain_prefix_with", "src/radix_tree/lazy_radix_tree.rs: children"])
p("C97", "Iterators and lookups on one lazily loaded tree share what they load",
  "Any number of iterators over entries, over values, or over the entries below a prefix (`scan_prefix`) of one radix tree, and lookups in it, interleaved in any way: each iterator gives a beginning of its complete enumeration, ends after at most 6 n + 2 (d + 1) turns of its loop and has then given everything (n entries to give, keys of at most d components), and the bounds for iterations stopped early hold for each; lookups are answered from the contents, which do not change. All together load no vector of children twice, and copy or create none. Once one iteration over the tree is complete the whole tree is loaded (and stays in memory), and whatever is read afterwards loads nothing.",
  "all trees the operations build in any state of loading, all sequences of starting iterators, turns, prefix searches and lookups",
  "Loading is not visible in results, and it depends on everything that was read before in what order.",
  ["src/radix_tree/mod.rs: Iter, Values, iter, values, scan_prefix, find, get", "src/radix_tree/lazy_radix_tree.rs: children"])
p("C98", "Merging large collections does not need a deep stack",
  "In every merge (set operations, set relations, joins, children of radix trees; by reference or in place) of n with m elements the recursion is nested at most log2(n) + 2 deep, whatever the operation, the elements and the comparison do, even if the comparison obeys no law: with that limit on the stack a merge does exactly what it does without a limit. If one of the inputs is empty, there is no recursion at all.",
  "every merge operation, every state and every comparison function, every limit that is large enough",
  "The nesting depends on sizes and outcomes of comparisons; a test reaches small sizes only, and a stack overflow aborts the process.",
  ["src/merge_state.rs: merge", "src/vec_set.rs: union, intersection, difference, symmetric_difference, is_subset, is_disjoint"])
p("C99", "How much stack validating and deserializing an archive need",
  "Validating an archived radix tree in an arbitrary buffer calls itself at most as many times, one call within the other, as nodes would fit in front of the root and the root itself (for archives with shared vectors of children: nodes and vectors); with that limit on the stack it does exactly what it does without. If there is a tree, a stack for its longest path suffices; for what is accepted that is also necessary (with shared vectors: as much as for going to the first child again and again). Deserializing a tree is nested exactly as deep as the tree (with shared vectors: at most as deep). Finding: the stack needed grows in proportion to the archive, an archive of 25 n + 31 bytes that is accepted nests n + 1 calls (with `Arc`s: one of n + 1 nodes, vectors and key components), so that an untrusted archive of some megabytes can end the process by a stack overflow.",
  "all buffers, all layouts, all positions, all trees, all limits",
  "The attacker chooses the bytes; a stack overflow aborts the process, and tests try small archives.",
  ["src/radix_tree/flat_radix_tree.rs: CheckBytes::check_bytes", "src/radix_tree/arc_radix_tree.rs: CheckBytes::check_bytes, Deserialize::deserialize"])
p("C100", "How much work the validation of an archive is",
  "Validating an archived radix tree in an arbitrary buffer, whether it is accepted or rejected, takes time linear in the length of the buffer (nodes and key components checked, children looked at before they are checked). For archives with shared vectors of children the number of nodes and key components checked is linear too, with or without cycles, but the number of children looked at is only bounded by the square of the length. Finding: it can be quadratic, since a shared vector is checked once but looked at for each node that has it: an accepted archive of 2 m + 1 nodes makes validation look at 2 m * m children. Deserializing an archive with shared vectors deserializes the elements of each vector once, however many nodes share it.",
  "all buffers, all layouts with nodes and key components that take space, all positions; the finding for all m",
  "The attacker chooses the bytes; time on a few inputs says nothing about the worst case.",
  ["src/radix_tree/flat_radix_tree.rs: CheckBytes::check_bytes", "src/radix_tree/arc_radix_tree.rs: CheckBytes::check_bytes"])
os.chdir(os.path.dirname(os.path.abspath(__file__)) + "/..")
with open("properties.jsonl", "w") as f:
    for q in P:
        f.write(json.dumps(q, ensure_ascii=False) + "\n")
print(len(P))
