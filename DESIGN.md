# Formal model of rklaehn/vec-collections — design

`/repo` (Rust, pinned) is read as text only. The model lives in `lean/Verif`,
properties are listed in `properties.jsonl`, the claim/theorem map is in
`MANIFEST.json`, and mutation experiments are logged in `seeded/LOG.jsonl`.

## 1. Trusted base

* **Lean 4.33.0's kernel.**
* **Axioms**: `propext`, `Classical.choice`, `Quot.sound`, and no others. Section 7 says how this is checked;
  a per-theorem table is in `AXIOMS.md` (generated by `tools/axioms.sh`). No `native_decide`, no `bv_decide`, no
  own axioms, no `opaque`/`unsafe`/`implemented_by` in the model.
* **My reading of the Rust source.** Every model definition cites the file and lines it models; nothing mechanical ties
  the Lean text to the Rust text. Section 6 (wrong programs) is the check that the theorems notice a changed model.
* **External crates and std**, which are not part of `/repo`, are modelled from their documented behaviour and
  from my knowledge of their source:
  * `binary-merge` `MergeOperation::merge` (recursive binary-search merge). The results are *also*
    proved for **every** legal schedule of callbacks (C12), so they do not hinge on the exact
    recursion of the dependency, only on it being a legal merge schedule.
  * `core::slice::binary_search_by` (the loop of std; only its contract is used in proofs about sorted slices).
  * `slice::sort_by` is a stable sort (Lean's `List.mergeSort`, proved stable in core Lean);
    `Vec::dedup(_by_key)` keeps the first of each run; `SmallVec::retain` swaps in place and truncates at the end (so an
    unwinding predicate leaves what the swaps left: C13/C29).
  * `inplace-vec-builder`: source/target gap buffer (modelled twice: as two lists for the functional proofs
    and at slot level for C57).
  * `SmallVec`/`Vec` = finite sequence. Allocation failure is not modelled. The capacity of a `SmallVec` is modelled for C92 only (`Model/Capacity`): `reserve` and `push`
    grow to the next power of two, `with_capacity` and `shrink_to_fit` are exact, nothing else changes it; elements of size zero and lengths overflowing `usize` are left out.
  * `Arc` (strong count, `make_mut` copies iff count ≠ 1; no `Weak` is ever created by the crate), `parking_lot::Mutex`
    (mutual exclusion, no poisoning), `std::collections::BTreeMap` (ordered finite map; a panic in `retain`'s closure keeps the visited survivors and the unvisited entries).
  * `rkyv`: an archived value is a finite tree of slots with relative pointers; `SharedSerializeMap` /
    `SharedDeserializeMap` are finite maps keyed by address; byte layout, padding and alignment are modelled in C79 only
    (where rkyv's `ArchiveValidator`: bounds, alignment and subtree ranges, is part of the trusted environment).
  * `serde`: a (de)serialiser is a sequence of elements, any of which may be an error.
* **Laws of user types.** `Ord` is lawful: `Ord α` with `Std.TransOrd α` (a total preorder: equal-comparing
  values may be distinguishable, so "which representative is kept" is visible), plus
  `Std.LawfulEqOrd α` where the code or the claim needs `cmp = Equal ↔ ==`. Radix tree key elements have
  `Ord` agreeing with `Eq` (the crate's `TKey: Eq + Ord + Copy`). `Clone` returns an equal value
  (except in C88 for `remove`, in C89, C90 and C91, where it is arbitrary code); `Borrow<Q>` (except in C93) is order
  preserving (Rust's contract). Closures are pure functions of their arguments, or may panic (C29, C70),
  or have state and panic (retain, C29, and all joins and in-place combinations: C80-C84).
  C75 drops the laws of `Ord`: there the comparison is an arbitrary stateful function that may panic.
* **Machine integers**: lengths/indexes are `Nat` (no collection exceeds `usize`).

## 2. Modelling conventions

* `&mut self` methods return the new value. Panics are explicit (`Flow.panic`, or `Except`), and the state at the panic
  is kept where unwinding can observe it (C29).
* Callback-style merging is modelled as it is in the code: a `MergeOp` record (cmp/from_a/from_b/collision)
  over a merge state with `aSlice/bSlice/advanceA/advanceB`, driven by `binaryMerge`.
* The specs (`Verif/Spec`) never mention the merge machinery: sets are predicates, maps are partial functions, radix
  trees are the set of stored (key,value) pairs, shared heaps are a machine over plain values, the database is an abstract
  "last durable value".
* Recursion in the Rust code that is not structural is fuelled in the model; the theorems are about the function
  with its fuel computed from the input and fuel adequacy is part of what is proved (C51: no "out of fuel" and no
  panic outcome is reachable).
* Layout: `Model/` (the code), `Spec/` (what is claimed), `Lemmas/` (proofs), `Props/` (one theorem per claim or part of a
  claim, named `Cnn_…`, each followed by a concrete non-trivial `example` meeting its hypotheses).

## 3. Per-property plan

| id | model | proof |
|---|---|---|
| C01 | all constructors/ops of VecSet, `Reachable` histories | invariant by induction over histories; conversely every ascending list is reachable |
| C02, C03 | `SortAndDedup.push`, `dedupBy` with swaps, compaction threshold | invariant: sorted prefix + "first/last equal element" preserved |
| C04 | std binary search loop | loop invariant |
| C05 | `SmallVecMergeState` + ops + `binaryMerge` | legal schedule ⇒ `joinList`; lookup lemma for `joinList` |
| C06 | `InPlaceMergeState`, `InPlaceSmallVecMergeStateRef` | same schedule theorem |
| C07 | `BoolOpMergeState` with early abort | run prefix lemma |
| C08 | interpreter for operation lists vs. mathematical set | refinement |
| C09, C10 | list equality / lexicographic compare | extensionality of strictly sorted lists |
| C11 | NoConverter panic, wrong op | bugs: witness + partial theorems |
| C12 | events + `Legal` schedule predicate | all legal schedules give same result; binary and tape merges legal |
| C13, C14 | retain (stateful, possibly panicking predicate), insert/union/intersection/collect representatives | filter lemmas; lookup lemma returns the stored representative |
| C15, C16 | serde visit_seq, rkyv check_bytes order check | iff characterisation |
| C17 | length of `data` during pushes | invariant `len ≤ max 16 (2·distinct+1)`; witness that 2·distinct is exceeded |
| C18–C28, C58 | VecMap and its merge ops (outer/left/right/inner joins, in place) | same schedule theorem with partial closures |
| C29 | in-place merge with panicking closures | prefix-of-legal-run lemma: target ++ dropped source is sorted |
| C30–C34 | TotalVecSet | pointwise membership; infinite-type hypotheses for exactness; witnesses for bugs |
| C35–C38 | TotalVecMap | pointwise; witnesses for equality ignoring default |
| C39, C40 | AbstractBTreeMap joins over sorted lists | direct induction; witness for right_join_with |
| C41–C51 | radix tree functions, fuelled recursion | semantic `Entry` relation; canonical forms; programs (`Prog`) and `Reachable ↔ Canonical`; fuel adequacy = termination |
| C52 | check_bytes for archived trees | iff characterisation |
| C53 | heap of ref-counted child vectors, make_mut; a machine with clone/drop/mutate/read commands | refinement of a machine over plain values; frame theorem |
| C54 | lazily materialised nodes over an archive, in the same heap | simulation: lazy run = eager run; reads change no meaning |
| C55 | Lazy cell as interleaved small-step machine, any number of threads | invariant over all schedules |
| C56 | RadixDb: heap + sharing-aware serialiser + append-only files, failing/crashing I/O | refinement of `Spec.RadixDb`, registry invariant, exact count of slots written |
| C57 | slot-level in-place builder | ownership accounting invariant |
| C59 | reference counts of the heap machine | counts = number of references; freed iff unreferenced |
| C60–C62 | `Model/Cost`: lookups, collect and merges in a counting monad (same code with a comparison counter) | erasure to the plain model; bounds by induction (log₂ for searches, potential for collect; for the symmetric bound of C62, `Lemmas/CostOptimal`, the logarithm is estimated by a different tangent on each level of the recursion; that no merging program does with less than a 14th of the bound: `Spec/Merging` defines such programs as decision trees, `Lemmas/CostLower` counts the inputs they must tell apart) |
| C63 | `Model/Macros`: `default()` + one `insert` per argument | induction over the argument list |
| C64 | `Model/IterKey`: the key buffer behind an `Arc` with reference count, `make_mut`; client commands interleaved with `next` | simulation of a machine whose keys are plain values; count invariant |
| C65 | `Model/IntoIter`: references as addresses into the box | simulation while the box lives; refutation after it is dropped |
| C66 | `Model/Iterators`: wrapper iterators over a slice iterator | state after n calls in closed form |
| C67 | `Model/Multimap`: examples/multimap.rs on top of VecMap/VecSet | invariant over histories from C26 and C05 |
| C68 | `Model/Storage`: MemStorage, FileStorage with failing system calls, MemStorage under a lock with threads | refinement of `Spec/Storage`; linearizability by an invariant over all schedules; link to the files of C56 |
| C70 | the radix in-place combinations with closures that panic for some pairs of values | merge-with-panic lemma (`joinRef_cut`), induction on the recursion, completed run as reference |
| C71 | `Model/RadixDbShared`: one storage, several databases with their files looked up by name | each database's projection is a history of C56; counterexamples evaluated in the kernel |
| C72 | `Model/RadixDbLate`: C56 plus a rename that happened but reports an error | invariant: memory independent of the file; counterexample for `flush` |
| C73 | `Model/SharedOps`, `Model/SharedPure`, `Model/SharedWorld`: the trait operations as programs of the C53 machine over handles; `Model/PlainWorld`: the same histories on plain trees | every part of a program refines the plain operation on the value machine, then C53's refinement; histories by induction; plain trees by C41-C52 |
| C74 | `Model/Threads`: the calls of the C53 machine cut into single accesses to reference counts and vectors, interleaved by an arbitrary schedule; exclusively borrowed vectors are checked out of the heap, so that a race becomes a fault | ghost state per thread (held nodes, reserved addresses, zipper of the tree it works on, step budget); one invariant, preserved by every step of any thread; linearization point = last step of a call |
| C75 | `Model/Hostile`: searches, element updates, collecting, the merge driver and all merges with a comparison that is an arbitrary stateful function and may panic; unchecked accesses become the outcome `fault` | Hoare-style rules for the searches and collecting; a run of the driver = some callback sequence (then C57), two merge states run in lockstep; prefixes of legal schedules for comparisons that are lawful but panic |
| C76 | the recursive radix functions with an explicit depth limit, iterator states | measure: components of the longest path; each recursive call of a pair with matching heads consumes a component; one generic induction for the eight combinations, one for the relations |
| C77 | `Model/RadixCost`: `find` in a counting monad | erasure to `find`; induction on the descent |
| C78 | `nodes`, `components`, turns of the iterator loop | induction over trees without superfluous nodes |
| C79 | archives as buffers with pointers, `check_bytes` with rkyv's range bookkeeping, reading, writing (`Model/Archive`) | what is accepted/written by induction on fuel/tree; termination by the shrinking range; counterexample for trees |
| C80 | `Model/Effects`: the joins, `combine_with`, `map_values` and the total combinators with the closure's state carried through the merge states | each callback sequence of a legal schedule performs `callEach` on the corresponding stretch of the argument list; the list is characterized by `InOrder` and unique |
| C81 | `Model/BTreeEffects`: the joins of btree_map.rs with stateful, panicking closures; a closure on `&mut V` returns what it left; std's `retain` interrupted by a panic keeps the visited and the unvisited entries (trusted) | `fillEach`/`callEach` on the argument list; a walk over `b` settles one key per step; `retain` = settled part ++ rest |
| C82 | `Model/RadixEffects`: the in-place combinations of radix_tree/mod.rs with stateful, panicking closures on `&mut V`; the closure's state is threaded through split, galloping merge and unsplit | lock step with the plain run (C41-C52, C70) on trees whose values carry their keys, with the oracle closure that knows the state at each key; the calls are the common keys in order, so the oracle exists; `fillEach` on the list of calls |
| C83 | `Model/RadixEffects` (second half): the combinations into a new tree with stateful, panicking closures | the same lock step as C82, up to the panic (which loses the new tree); `left_combine` asks where the right tree has a node, i.e. (canonical tree) at its keys and forks |
| C84 | `Model/RadixPrefixEffects`: `remove_prefix_with`, `retain_prefix_with` with stateful, panicking predicates | the merge of the children as a plain join over sorted heads (`joinE`), a log of questions and answers carried through it; induction on the sizes of both trees. Corollary: for stateless predicates it is C50 |
| C85 | `Model/RadixWork`: the recursive merges with `==`, `cmp` and `sort_by_key` as effects of a monad, counted | erasure to the functions of `Model/RadixTree`; one bound for the merge driver in terms of either operand, then induction on the recursion depth |
| C86 | `Model/HostileRadix`: the recursive functions of radix_tree/mod.rs with arbitrary stateful, panicking `==` and `cmp`; indexing an empty prefix panics where the code does it; running out of fuel is the outcome `fault` | one Hoare-style rule for the merge driver (`Lim`), values as sub-multisets, shape as an invariant (`Headed`, `Full`); for components that compare like an order if they answer: lock step with the plain run (`Sim`, `Along`) |
| C87 | archives of `ArcRadixTree`/`LazyRadixTree` as buffers with pointers to shared vectors: `check_bytes` with rkyv's ranges and registry, reading, deserializing with a registry, writing with a registry, reopening (`Model/ArcArchive`) | accepted: invariant over the registry (every registered vector lies inside and its children are ordered), then reachability; written: induction on the tree with a registry invariant in an abstract memory; sharing as a one-to-one relation between addresses and positions; counterexamples and findings |
| C88 | `TotalVecSet` and the comparing part of `TotalVecMap` over the operations of `Model/Hostile` (`Model/HostileTotal`) | case distinction over the flags on top of C75; after a panic: prefix of the intended elements beside the old flag |
| C89 | `Model/RadixClone`: the operations of C82 and C84 with an untrusted `V::clone` (state, any result, panics) and an arbitrary oracle for `Arc` sharing | any clone: an invariant of the partly built child vector (valid, each entry made from values under the same key) through the in-place merge; honest clones: lock step with the ideal run up to the first panicking clone, and there a description of what the builder's drop leaves |
| C90 | `Model/SetClone`: the set operators and joins over merge states whose converter (`Clone`) has state, any result, and panics | like C80, but the callbacks also make the element or key: any legal schedule, and the binary merge, calls one combined closure on the arguments in order; the answers are the result |
| C91 | `Model/TotalClone`: `Clone` of the containers, the operators of total sets and maps, the joins of `BTreeMap`, with a stateful, panicking, lying `Clone` | from C90 by cases on the two complements; the loops by induction as one combined closure over the arguments of C80/C81 |
| C92 | `Model/Capacity`: the capacity of the `SmallVec` behind a set or map, added to the models of the merges (by reference: a result vector with capacity; in place: the slot-level builder of C57 whose growth policy is that of `reserve`), of `sort_dedup`, `insert`, the visitors | an invariant on (length, capacity) through the merge driver; in place: the driver hands over exactly the right elements without partner (C40/C70 plan), so room needed at any time ≤ length of the union; `sort_dedup`: the unsorted tail is at most as long as the sorted part; histories by induction |
| C93 | `Model/BorrowLookup`: `get`, `get_mut`, `[]` with arbitrary `borrow` and order of the borrowed type, out-of-bounds indexing as a panic | binary search under any comparison function returns an index in range whose element compares equal; under a non-falling one it finds a match if there is one |
| C94 | `Model/CopyOnWrite`: the in-place operations, `get` and `filter_prefix` on trees whose nodes say whether their vector of children is still a slice of the archive, shared, or the tree's own, counting vectors loaded, copied and created (the heap itself: C47, C49, `Model/SharedHeap`) | refinement to `Model/RadixTree` and bounds in one induction over the recursion; `C94_once`: a vector that was copied or loaded is the tree's own for good, so an amount that pays for each of them never grows ("purse") |
| C95 | `Model/LazyIter`: the loops of `Iter::next` and `Values::next` and `scan_prefix` over the trees of C94, runs that stop after any turn | invariant: the stack with positions determines turns, loads and items so far; a finished subtree without superfluous nodes has fewer than two nodes per entry (C78); the stack is at most as deep as a key is long (C76) |
| C96 | `Model/LazyReads`: the calls of `children()` made by the relations and by `inner_combine` (through the driver of the merges, so with its order and early exits), counted for each operand | a lemma about the driver: what a collision counts is bounded by the two elements; relations: a node is looked at only where the other tree still has components, and they part at once if the first components differ; `Model/LazyReadsCopy`: `outer_combine` and `left_combine`, which copy children without partner, so that the calls are counted in the state of the merge: invariant "counted so far plus nodes still to come"; `Model/LazyReadsInPlace`: the operand of the in-place operations, which is materialized once per collision and never looked at again above: the same bound with the driver of the in-place merges |
| C97 | `Model/LazyReaders`: the tree as one object whose vectors are loaded in place, references to nodes as positions; any number of `Iter` (from `iter` and from `scan_prefix`, whose search loads) and `Values` on it, their turns and lookups in any order | each reader simulates an iterator of its own on a tree of which nothing is loaded (C95 gives order and bounds); loading only grows what is loaded and is paid from `unloaded`; invariant for completeness: whatever is not loaded lies in the part an iterator has still to visit |
| C98 | `Model/MergeDepth`: the driver `binary_merge` with a limit for the nesting of its calls and a stack overflow as an outcome of its own | induction on the limit: the pivot halves the first input |
| C99 | `Model/ValidationDepth`: validation (models of C79, C87) with a limit for the nesting of `check_bytes` and a stack overflow as an outcome of its own; rkyv's own limit (`max_subtree_depth`) is at its default, unlimited | the range in which children are expected shrinks by a node (and a vector) per call; induction on the limit; the needed depth by induction along a path of the stored tree; the same for `deserialize`; with `Arc`s only vectors of nodes above have been met on the way to the first children |
| C100 | `Model/ValidationWork`: validation (models of C79, C87) with a count of what is checked and looked at; passes that stop early count as a whole | same results as the validator without a count; what a node costs is paid by the part of the range it takes, and by the buffer once if it is rejected; the finding by an archive written by the crate (C87); deserializing (`loadW`): a call that finds its vector in the registry adds one, any other adds the length of the vector it registers |
| C69 | `Model/Watch`: senders, channels, `notify`, `scan` of `watch_prefix` | invariant over histories; batches from C49 and C45 |

Notes on the more delicate models:

* **C41–C51.** `Radix/Prog` is the set of trees built by any finite program of public operations; it is proved to be *exactly*
  the set of canonical trees, so "for every canonical tree" and "after any history" coincide. `left_combine`'s
  behaviour (f consulted only at forks) is characterised exactly.
* **C53/C54/C59.** The heap maps addresses to (strong count, children); addresses of freed cells are not reused in the
  model. (The only place where the crate compares addresses is the registry of C56, which holds a strong reference to everything it
  mentions: `C56_registry_sound` proves that no registered address is ever free, so reuse cannot matter.)
* **C73.** The programs visit nodes in the order of the source, but merge two child arrays linearly (the galloping merge is C01-C08's
  subject), look for a child by its first component (at every child, not by binary search), use one value type for both operands, closures that
  do not panic (those are C70), and run iterators to their end. Recursion carries fuel; the theorems hold for every sufficiently large fuel.
* **C74.** Steps are sequentially consistent: fetch-add, fetch-sub and compare-and-swap of `Arc` (std, trusted), loading of a lazy node (one
  step because of C55), reading one element of a shared vector. Which calls may overlap is decided by `Call.compatible` (Rust's borrow
  rules on variables); the theorems show that the memory *behind* the variables needs no further rule. Weak references are not used by the crate.
  Panics inside `Vec::clone` (allocation failure, `V::clone`) are not modelled here (sequentially: C89). The model takes for granted that trees may be sent and shared
  between threads; for `LazyRadixTree` the type system permits sending only, because of `unsafe impl Send for Lazy` without bounds and no `Sync`.
* **C75.** `slice::sort_by` with an inconsistent comparison returns some permutation or panics (std's documentation); it is a parameter of the theorems.
  `Clone` (but see C90) and the destructors of elements are not hostile. Radix trees (C86) and `TotalVecSet`/`TotalVecMap` (C88) have their own models. The std `BTreeMap` is not covered.
* **C55.** Sequentially consistent interleavings of the individual loads/stores/lock operations; `C55_no_data_race` justifies
  SC. `&mut Lazy` access is one step (the borrow checker excludes concurrency). The creation of aliasing `&mut Either`
  inside the `UnsafeCell` (undefined behaviour by Rust's stacked-borrows rules) is not expressible in this model.
* **C56.** Storage is modelled at slot granularity (one slot per archived node/vector); positions are slot counts. A crash
  in the middle of `append` leaves any prefix of the appended slots; `mv` is atomic. Watchers are modelled separately (C69; they do not influence
  the stored data).

## 4. Findings in the code

Each is proved in Lean (a witness or characterisation theorem) unless marked *(reading)*.

Wrong results:

* `VecSet::union_with` (vec_set.rs:756-758) uses `NoConverter`: it panics as soon as `that` has an element missing in `self`. `C11_union_with_panics`
* `VecSet::xor_with` (vec_set.rs:769-776) computes the intersection. `C11_xor_with_is_intersection`
* `TotalVecSet::is_superset` (total_vec_set.rs:140-142) is `!is_subset`. `C32_superset_counterexample`
* `TotalVecSet` relations/equality are exact only for infinite element types. `C32_finite_counterexample`
* `TotalVecMap` `PartialEq`/`Hash` (total_vec_map.rs:67-71) ignore the default value. `C37_counterexample`
* `VecMap` deserialisation keeps the *first* duplicate key, `collect` the *last*. `C28_differs_from_collect`
* BTreeMap `right_join_with` (btree_map.rs:188-198) neither drops keys missing in `that` nor inserts new keys. `C40_right_join_with_counterexample`
* radix `left_combine(_with)` (radix_tree/mod.rs:1146-1202) does not call `f` for keys where the right tree has no node. `C45_left_combine_not_everywhere`
* `FromIterator` doc ("never more than twice the size"): the peak is `max 16 (2n+1)`, attained. `C17_bound_attained`
* `retain` with a panicking predicate can leave an unsorted VecSet/VecMap. `C29_retain_panic_unsorted`
* radix `into_iter` yields `&'static V` into a box owned by the iterator (mod.rs:596-598, 1906-1926): use after free from safe code once the iterator
  is dropped. `C65_dangling_after_drop`, `C65_counterexample`
* `FileStorage::mv` of a missing file to a missing name is an error, contrary to the trait's contract. `C68_file_mv_missing`
* `watch_prefix` never updates the tree it compares with, so batches repeat earlier changes. `C69_not_incremental`
* A radix in-place combination whose closure panics may leave a non-canonical tree and lose the remaining siblings. `C70_counterexample`
* Two `RadixDb` values with the same name corrupt the file, even if every operation succeeds. `C71_same_name_counterexample`
* `vacuum` of the database `x` destroys the database `x.tmp`. `C71_tmp_counterexample`
* After a rename in `vacuum` that happened but reported an error, the next `flush` corrupts the file. `C72_flush_counterexample`
* `is_subset` and `intersects` of radix trees scan the children one after the other where a lookup searches. `C85_relations_scan`
* Key components whose `cmp` says `Equal` where `==` says `false` make `insert` build a node whose child has an empty prefix; from then on the tree panics out of
  bounds. `C86_finding_bad_tree`, `C86_finding_bad_tree_panics`
* A panic of the comparison inside the `sort_by_key` of `insert` (mod.rs:387-388) leaves the children unsorted: an old key is no longer found.
  `C86_finding_unsorted`
* Archived radix tree validation does not enforce canonical form; `is_subset` may then wrongly say no. `C52_not_canonical`
* Archived radix tree validation uses the vector of children, and the prefixes of the children, before checking the pointers to them
  (flat_radix_tree.rs:251-258, checked in 263): reads outside the buffer on a hostile archive. `C79_hostile_counterexample`
* The same for `ArcRadixTree` archives (arc_radix_tree.rs:301-313, checked in 315). `C87_hostile_counterexample`
* Validation accepts `ArcRadixTree` archives that go round in circles (a shared vector may contain a node that points to it); deserializing or iterating never ends.
  Rests on the reading of rkyv 0.7 stated in Model/ArcArchive.lean. `C87_finding_cycle`
* Validation rejects every tree that shares a vector with a tree written before it by the same serializer, so every second `flush` of a `RadixDb` (the validating call
  is commented out, examples/radix_db.rs:319-321). `C87_finding_second_tree_rejected`
* Accepted archives of `n` shared vectors can stand for `2^n` nodes. `C87_finding_exponential`
* `TotalVecSet`'s assigning operators assign the flag after the elements (total_vec_set.rs:189-216, 234-261, 270-275, 294-321): after a caught panic of a comparison the old flag stands beside the
  elements of the new set, so the set contains elements of neither operand of an intersection and lacks common ones. `C88_caught_panic_inverts`

By reading, not theorems:

* arc_radix_tree.rs `empty_arc` transmutes an `Arc<Vec<u128>>` (UB per the code's own TODO); `unsafe impl Send for Lazy`
  has no bounds; radix_db.rs loads with unchecked `archived_root`.
* `RadixDb::vacuum` after a crash or failed `mv` appends to the stale `.tmp`; because pointers are relative the file still loads
  and later flushes stay correct (this *is* covered by C56), only `pos` differs from the file length.
* A panicking `V::clone` in the middle of an in-place combination of radix trees (also in `insert` and `union_with`) loses entries the tree had
  before the call: the children not yet merged are dropped with the builder (C89, examples in `Props/RadixClone`). The tree stays valid. Likewise `a |= &b` and `a ^= &b` on sets: when a clone panics, the elements of `a`
  above the one being cloned are lost (C90_assign, example in `Props/SetClone`); the set stays strictly ascending (C90_faithful_assign).
* `FileStorage::append` does not fsync although the contract says the data is durable on return; a torn append makes the file
  unloadable until the next successful flush/vacuum in the same process.
* `AbstractBTreeMapIter` has no `size_hint` override, so `inner_join` always takes its else branch.
* `Lazy::uninitialized` is reached only through `materialize_shallow`; `From<&ArchivedLazyRadixTree>` is eager, so a `LazyRadixTree` never
  lazily loads non-empty content through the public API.
* vec_map.rs `CombineOp` (208-230) is dead code.
* `^=` may allocate although the result fits in the left set (`C92_xor_spills`); `collect` may allocate although the result fits, because it reserves room for up to 16 announced items that turn out equal
  (`C92_collect_allocates`), and a `VecMap`, which unlike `VecSet` is not shrunk after collecting, may then stay on the heap (`C92_map_stays_on_heap`).
* Deserializing a set or map reserves the declared number of elements before one has arrived (`C92_deserialize`, third part): a short hostile input can make it ask for any amount of memory (serde's own collections cap that).
* An in-place operation asks every child of the nodes it passes whether it is empty (`retain` in `unsplit`, mod.rs:146), which loads the vectors of all children without value: one short key can cost as
  many loads as there are siblings (`C94_siblings`). It also makes the vectors on its way its own even if it then changes nothing (removing an absent key copies shared vectors), copies a shared vector just to
  `clear` it (mod.rs:428, 486, 497, 543), and `outer_combine_with` and others copy the rest of the other tree (`materialize_shortened`, mod.rs:365) once per level of the descent, all but the last of which are thrown away:
  a union of a chain of `n + 1` nodes with a tree of `m + 1` nodes below it creates `(n + 1)(m + 1)` vectors at least (`C94_copies_again`).
* The combinations into a new tree materialize the part of an operand below a node of the other one in the middle of a prefix (mod.rs:1119, 1129): the intersection of a huge lazily loaded
  tree with one short key may load all of it, and return nothing (`C96_intersection_loads_all`); `intersects` and `filter_prefix` do not, nor does `intersection_with` load the tree that it changes, but it (and `difference_with`) may load all of a huge lazily loaded operand in the same way (`C96_operand_loads_all`). `union` loads all of both trees (`C96_union_loads_all`) and `difference` all of the left one, even if the right one
  is empty (`C96_difference_loads_left`), because `materialize_shortened` makes a new vector for every node instead of sharing the old one.

* Validation of an archive needs stack in proportion to its length, so that an untrusted archive can end the process. `C99_finding_overflow`, `C99_shared_finding_overflow`
* Validation of an archive with shared vectors of children can take time quadratic in its length. `C100_finding_quadratic`

## 5. What is not modelled

* `Debug`/`fmt` impls, `Clone`/`AsRef`/`Borrow`/`Deref` pass-throughs; capacities outside C92 (temporary memory of `sort`, the vectors of radix trees).
* benches, the crate's own tests, the examples other than `radix_db.rs` and `multimap.rs`.
* `CombineOp` in vec_map.rs (dead code), `AbstractBTreeMap::get` by a borrowed key (passed on to std and rkyv).
* how rkyv encodes single values as bytes (C79 and C87 abstract from it by arbitrary readings), overflow of 32 bit offsets; serde data formats.
* In C94 to C97: that a shared vector may have lost its other owners (counted as shared, so the counts are upper bounds).
* Out-of-memory; stack overflow outside C76, C98 and C99.

## 6. Wrong programs (`seeded/LOG.jsonl`)

`seeded/LOG.jsonl` records each experiment: the model definition edited in a scratch copy, the edit, the English claim that becomes
false, which theorems stopped compiling, and which theorems were tightened because none did. Baseline (no edit) builds are run with every
batch to exclude spurious failures.

## 7. How the axioms are checked

`tools/axioms.sh` runs `#print axioms` on every theorem named in `MANIFEST.json` (in a temporary file, outside the
library) and writes `AXIOMS.md`. `vcheck` independently rebuilds a clean checkout and replays it through the kernel.
