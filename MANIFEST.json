{
 "claims": [
  {
   "property": "C01",
   "status": "proved",
   "theorems": [
    "Scc.Table.c01_sequential"
   ],
   "note": "Sequences of point operations and traversals (retain, clear, iter) with arbitrary helping, relocation and resizing between and during calls; all 64-bit hash functions. Buckets are partial functions here; C12 proves that they are."
  },
  {
   "property": "C02",
   "status": "proved",
   "theorems": [
    "Scc.Table.c02_linearizable"
   ],
   "note": "Any number of threads, one shared access per step, sequentially consistent memory; resize decisions nondeterministic. Calls whose future is dropped and calls that unwind are included (C16, C56), except for failing allocations in the middle of a relocation. The atomic map lets only calls of HashCache evict (C58). An array is known by its identity here, not by its address; C59 shows where asynchronous calls depend on the difference."
  },
  {
   "property": "C03",
   "status": "proved",
   "theorems": [
    "Scc.Table.c03_one_place",
    "Scc.Table.c03_unchanged",
    "Scc.Table.c03_lookup",
    "Scc.Bucket.c03_extract_moves_one"
   ],
   "note": "Every reachable state of the concurrent table; the last theorem is the entry move at the level of slots. Besides operations and traversals on the key, only an evicting call of HashCache that holds the bucket takes an entry out (C58)."
  },
  {
   "property": "C04",
   "status": "proved",
   "theorems": [
    "Scc.Rehash.c04_detached_at_most_once",
    "Scc.Rehash.c04_detached_only_when_done",
    "Scc.Rehash.c04_never_stuck",
    "Scc.Rehash.c04_claims_in_range"
   ],
   "note": "Any number of helper threads, any interleaving of start/end of rehash ranges, sequentially consistent atomics."
  },
  {
   "property": "C05",
   "status": "proved",
   "theorems": [
    "Scc.Index.c05_hash_in_range",
    "Scc.Index.c05_range_bounds",
    "Scc.Index.c05_range_dual",
    "Scc.Index.c05_range_disjoint",
    "Scc.Index.c05_range_covers",
    "Scc.Index.c05_index_bound"
   ],
   "note": "All 64-bit hashes, all array sizes."
  },
  {
   "property": "C06",
   "status": "proved",
   "theorems": [
    "Scc.Index.c06_new_capacity",
    "Scc.Index.c06_new_capacity_tight",
    "Scc.Index.c06_resize_valid",
    "Scc.Index.c06_cache_limits",
    "Scc.Seq.c06_history",
    "Scc.Seq.c06_cache_history"
   ],
   "note": "All requested capacities and load estimates; and the capacity through all histories by one thread, resizing included, for all four hash containers."
  },
  {
   "property": "C07",
   "status": "proved",
   "theorems": [
    "Scc.Reserve.c07_minimum_is_sum",
    "Scc.Reserve.c07_reserve_decision",
    "Scc.Reserve.c07_release_no_underflow",
    "Scc.Reserve.c07_resize_lock_exclusive"
   ],
   "note": "Any number of threads, any interleaving of the single atomic accesses, wrapping 64-bit arithmetic."
  },
  {
   "property": "C08",
   "status": "partial",
   "theorems": [
    "Scc.Reserve.c08_capacity_range_invalid",
    "Scc.Reserve.c08_capacity_range_partial"
   ],
   "note": "The property is false: c08_capacity_range_invalid exhibits a reachable state with start > end (the raw word is returned while the resize bit is set). The partial theorem covers all moments without a resize in progress."
  },
  {
   "property": "C09",
   "status": "proved",
   "theorems": [
    "Scc.Table.c09_visits"
   ],
   "note": "Traversals under concurrent use and any resizes."
  },
  {
   "property": "C10",
   "status": "proved",
   "theorems": [
    "Scc.Table.c10_retain",
    "Scc.Table.c10_clear",
    "Scc.Bucket.c10_bucket_pass",
    "Scc.Seq.c10_table_retain",
    "Scc.Seq.c10_table_clear"
   ],
   "note": "Whole table (with relocation on the way), the slot-level pass over one bucket, and the two combined: the slot-level table used by one thread."
  },
  {
   "property": "C11",
   "status": "partial",
   "theorems": [
    "Scc.Seq.c11_repeats",
    "Scc.Seq.c11_traversal_partial"
   ],
   "note": "The property is false: c11_repeats is a traversal by one thread that presents 31 entries of a map with 16 (a removal shrinks the container to an eighth and the cursor goes on at the start of a coarser bucket). The partial theorem: every traversal ends, presents every entry at least once and nothing else, removes exactly what was asked, and presents every entry exactly once if the capacity never falls below half from one step to the next."
  },
  {
   "property": "C12",
   "status": "proved",
   "theorems": [
    "Scc.Bucket.c12_bucket_refines_map",
    "Scc.Bucket.c12_lookup"
   ],
   "note": "All operation sequences on a locked bucket, all hash functions, all three container kinds."
  },
  {
   "property": "C13",
   "status": "proved",
   "theorems": [
    "Scc.Table.c13_is_empty",
    "Scc.Table.c13_unchanged",
    "Scc.Table.c13_len"
   ],
   "note": "is_empty as a sequence of steps beside helpers; len as a sum over the buckets of one state."
  },
  {
   "property": "C14",
   "status": "partial",
   "theorems": [
    "Scc.Table.c14_false_empty",
    "Scc.Table.c14_not_empty_partial"
   ],
   "note": "The property is false: c14_false_empty is a concrete schedule in which is_empty returns true although the key is present throughout. The partial theorem covers calls during which the array is not replaced."
  },
  {
   "property": "C15",
   "status": "proved",
   "theorems": [
    "Scc.Crowd.c15_dropped_once",
    "Scc.Crowd.c15_no_double_drop",
    "Scc.Crowd.c15_never_more",
    "Scc.Seq.c15_dropped_once_partial",
    "Scc.Seq.c15_cache_dropped_once_partial"
   ],
   "note": "All interleavings of bucket-level steps of any number of threads on HashMap, HashSet, HashIndex and HashCache: insertion, removal, marking, writing, update, eviction, resize, relocation, dropping the table, helpers that claim, finish or give up ranges, retirement and freeing of arrays; the container is dropped at any point at which no call runs, with any progress of a resize. A step that touches a bucket is atomic (its lock is held). An array is freed only after it was taken out and only once; for HashIndex this is C23, which has two exceptions of its own. For one thread the same is proved call by call on the sequential model."
  },
  {
   "property": "C16",
   "status": "partial",
   "theorems": [
    "Scc.Table.c16_leak",
    "Scc.Table.c16_leak_blocks",
    "Scc.Table.c16_cancel_partial"
   ],
   "note": "The property is false: c16_leak drops a future inside relocate_bucket_async and leaves a bucket locked for ever; c16_leak_blocks shows that the key is then unreachable (the blocked call never returns, unless it is dropped or unwinds itself). No entry is lost and all other locks are released (partial theorem)."
  },
  {
   "property": "C17",
   "status": "proved",
   "theorems": [
    "Scc.Table.c17_no_lock_kept",
    "Scc.Table.c17_give_up",
    "Scc.Table.c17_busy"
   ],
   "note": "All failure positions, any contention."
  },
  {
   "property": "C18",
   "status": "proved",
   "theorems": [
    "Scc.Table.c18_no_cycle",
    "Scc.Table.c18_chain_short",
    "Scc.Table.c18_holder_busy",
    "Scc.Table.c18_can_step",
    "Scc.Table.c18_complete"
   ],
   "note": "Executions without dropped futures (see C16 for those); chains of waits have at most two links in all executions."
  },
  {
   "property": "C19",
   "status": "proved",
   "theorems": [
    "Scc.Peek.bucket_finds",
    "Scc.Peek.bucket_misses",
    "Scc.Peek.step_effect",
    "Scc.Peek.out_stays",
    "Scc.Peek.c19_iter",
    "Scc.Table.c19_table_some",
    "Scc.Table.c19_table_none",
    "Scc.Table.c19_table_none_no_update"
   ],
   "note": "Two levels. The search of one bucket, load by load beside the single stores of the owner of the lock (bucket_finds, bucket_misses), and the walk of peek_entry over two arrays beside the concurrent table with resizing (c19_table_*), where one search of a bucket may return what the first level allows. An operation that has not returned counts from its first visible store: a value is in the map or being stored, a key is absent or being removed."
  },
  {
   "property": "C20",
   "status": "partial",
   "theorems": [
    "Scc.Peek.c20_missed_update",
    "Scc.Peek.c20_only_update_partial",
    "Scc.Peek.c20_old_or_new_partial"
   ],
   "note": "The property is false: c20_missed_update is an execution in which peek returns nothing although the key is stored in every state of the call (update overwrites the partial hash of the old copy after the reader has loaded the bitmaps). The partial theorems say what remains true."
  },
  {
   "property": "C21",
   "status": "proved",
   "theorems": [
    "Scc.Peek.c21_ref_valid",
    "Scc.Peek.c21_candidate_valid",
    "Scc.Peek.c21_iter_valid",
    "Scc.Peek.c21_no_recycle"
   ],
   "note": "Any number of guards, any interleaving of single loads and stores; the epoch test is replaced by its contract (all guards alive when the slot was marked are gone)."
  },
  {
   "property": "C22",
   "status": "partial",
   "theorems": [
    "Scc.Seq.c22_resumes",
    "Scc.Seq.c22_not_fused",
    "Scc.Seq.c22_complete_partial"
   ],
   "note": "The property is false: after None the iterator yields entries of the index again (c22_resumes for every index with an entry outside the first bucket, c22_not_fused concretely). The partial theorem: up to the first None every entry exactly once, also in the middle of a resize."
  },
  {
   "property": "C23",
   "status": "partial",
   "theorems": [
    "Scc.Gc.c23_sound_partial",
    "Scc.Gc.c23_retire_partial",
    "Scc.Gc.c23_drop_partial",
    "Scc.Gc.c23_reclaims_partial",
    "Scc.Gc.c23_violated_address",
    "Scc.Gc.c23_violated_again",
    "Scc.Gc.c23_generation_needed"
   ],
   "note": "The property is false: dealloc_garbage compares the head of the garbage list with an address it loaded earlier, while arrays on the list are freed without waiting for guards, so the address (c23_violated_address) or the array itself (c23_violated_again, through a retired array whose link leads to the garbage list) can come back, and arrays in use are freed. The partial theorems cover all executions, for any number of threads, in which neither happens: freed once, never while reachable or referred to under a live guard, nothing lost at drop. The epochs of sdd are a contract (Generation; a guard lets the epoch advance at most once); c23_generation_needed shows that it is needed."
  },
  {
   "property": "C24",
   "status": "proved",
   "theorems": [
    "Scc.Lru.c24_lru_refines_recency_list",
    "Scc.Lru.c24_evict_is_least_recent",
    "Scc.Lru.c24_victim_in_block"
   ],
   "note": "All sequences of touch/remove/evict over the 32 slots."
  },
  {
   "property": "C25",
   "status": "partial",
   "theorems": [
    "Scc.Seq.c25_evicts_partial",
    "Scc.Seq.c25_lru_partial",
    "Scc.Seq.c25_small",
    "Scc.Seq.c25_violated",
    "Scc.Seq.c25_sample"
   ],
   "note": "The property is false: c25_violated is a history in which the cache grows, key 5 is looked up, and the next put evicts key 5 while 31 entries of the bucket were not used since (entries moved by a resize are not on the LRU list). The partial theorems cover all histories in which the table does not shrink: eviction exactly if 32 entries share the bucket, the evicted pair is one of them, and it is the least recently used of those used since the last resize; without a resize it is the least recently used of all. c25_small: for caches of maximum capacity 64 the property holds in full, after every history."
  },
  {
   "property": "C26",
   "status": "proved",
   "theorems": [
    "Scc.Seq.c26_capacity",
    "Scc.Seq.c26_put_no_overflow",
    "Scc.Seq.c26_small",
    "Scc.Seq.c26_shrink_counterexample"
   ],
   "note": "All call sequences by one thread in which no call shrinks the table (releasing the array of an empty cache is allowed), all hash functions, all limits. c26_small: for caches of maximum capacity 64 no condition is needed. c26_shrink_counterexample shows why the condition is needed otherwise."
  },
  {
   "property": "C27",
   "status": "proved",
   "theorems": [
    "Scc.Leaf.c27_slot_update",
    "Scc.Leaf.c27_clear_mark",
    "Scc.Leaf.c27_flags",
    "Scc.Leaf.c27_states_independent"
   ],
   "note": "All 64-bit words, slots and states."
  },
  {
   "property": "C28",
   "status": "proved",
   "theorems": [
    "Scc.Leaf.c28_leaf_refines_sorted_map",
    "Scc.Leaf.c28_leaf_sorted_bounded",
    "Scc.Leaf.c28_insert"
   ],
   "note": "All operation sequences on one leaf used by one thread, all totally ordered key types; includes range removal, freeze and thaw."
  },
  {
   "property": "C29",
   "status": "proved",
   "theorems": [
    "Scc.LeafConc.c29_linearizable",
    "Scc.LeafConc.c29_unique",
    "Scc.LeafConc.c29_no_race",
    "Scc.LeafConc.c29_exclusive",
    "Scc.LeafConc.c29_never_blocked"
   ],
   "note": "Any number of threads calling insert, remove_if, the read operations, freeze and thaw on one leaf, every access to the metadata word and every slot write a step of its own, sequentially consistent memory. Range removal is not among the concurrent calls."
  },
  {
   "property": "C30",
   "status": "proved",
   "theorems": [
    "Scc.LeafConc.c30_retired_dead",
    "Scc.LeafConc.c30_frozen"
   ],
   "note": "Same executions as C29."
  },
  {
   "property": "C31",
   "status": "proved",
   "theorems": [
    "Scc.Tree.c31_map",
    "Scc.Tree.c31_contents"
   ],
   "note": "All sequences of insert, remove, remove_if, remove_range, peek and clear by one thread, all totally ordered key types, trees of any height, on the function-by-function model of leaves, nodes, splits, merges and the linked list of leaves."
  },
  {
   "property": "C32",
   "status": "proved",
   "theorems": [
    "Scc.Tree.c32_iter",
    "Scc.Tree.c32_len"
   ],
   "note": "All trees reachable by any sequence of calls; also len and is_empty."
  },
  {
   "property": "C33",
   "status": "proved",
   "theorems": [
    "Scc.Tree.c33_range"
   ],
   "note": "All reachable trees, all bound pairs."
  },
  {
   "property": "C34",
   "status": "proved",
   "theorems": [
    "Scc.Tree.c34_remove_range"
   ],
   "note": "All reachable trees, all bound pairs; results seen by peek and by iter."
  },
  {
   "property": "C35",
   "status": "partial",
   "theorems": [
    "Scc.Tree.c35_iter_restarts",
    "Scc.Tree.c35_range_restarts",
    "Scc.Tree.c35_iter_partial",
    "Scc.Tree.c35_range_partial"
   ],
   "note": "The property is false: after None both iterators start over (c35_iter_restarts, for every non-empty tree), and Range then yields keys below its lower bound (c35_range_restarts). The partial theorems cover the calls up to and including the first None."
  },
  {
   "property": "C36",
   "status": "partial",
   "theorems": [
    "Scc.Tree.c36_upper_bound_race",
    "Scc.Tree.c36_lower_bound_remove_range",
    "Scc.Tree.c36_undisturbed_partial"
   ],
   "note": "The property is false: c36_upper_bound_race (a removal between the two reads of set_check_upper_bound) and c36_lower_bound_remove_range (remove_range and insertions between two calls of next) are concrete executions that yield keys outside the bounds. The partial theorem covers trees that do not change during the iteration."
  },
  {
   "property": "C37",
   "status": "proved",
   "theorems": [
    "Scc.Leaf.c37_boundary",
    "Scc.Leaf.c37_distribute",
    "Scc.Leaf.c37_split_full",
    "Scc.Tree.c37_node",
    "Scc.Tree.c37_retry"
   ],
   "note": "Leaves: all full leaves, all permutations of ranks over slots. Nodes: all full inner nodes of any height, and the retried insertion."
  },
  {
   "property": "C38",
   "status": "partial",
   "theorems": [
    "Scc.Seq.c38_map_from_iter",
    "Scc.Seq.c38_insert_from_iter",
    "Scc.Seq.c38_clone",
    "Scc.Seq.c38_index_clone",
    "Scc.Seq.c38_eq",
    "Scc.Seq.c38_index_eq",
    "Scc.Seq.c38_serialize",
    "Scc.Seq.c38_index_serialize",
    "Scc.Tree.c38_tree_clone",
    "Scc.Tree.c38_tree_eq",
    "Scc.Seq.c38_cache_eq",
    "Scc.Seq.c38_cache_from_iter_partial",
    "Scc.Seq.c38_cache_serialize_partial",
    "Scc.Seq.c38_cache_from_iter_violated",
    "Scc.Seq.c38_cache_serialize_violated",
    "Scc.Seq.c38_cache_deserialize_violated",
    "Scc.Seq.c38_cache_deserialize_limit",
    "Scc.Seq.c38_cache_hint_sample"
   ],
   "note": "HashMap, HashSet, HashIndex and TreeIndex with any history behind them, also in the middle of a resize, different hash functions on the two sides: all parts hold. HashCache: comparison holds; building from an iterator and reading back serialised pairs may evict, and the announced length is the maximum capacity and not the number of pairs (three concrete counterexamples, two partial theorems). Serialisation is modelled as the announced length and the sequence of pairs."
  },
  {
   "property": "C39",
   "status": "proved",
   "theorems": [
    "Scc.Scope.c39_once",
    "Scc.Scope.c39_count",
    "Scc.Scope.c39_not_after_forget",
    "Scc.Scope.c39_rehash",
    "Scc.Scope.c39_loud",
    "Scc.Scope.c39_rehash_needs"
   ],
   "note": "All programs of a small language with return, unwinding, dropped futures, branches and loops; applied to the guard of incremental_rehash. Captured values whose drop unwinds are excluded (c39_loud shows why; the crate captures references, numbers and flags only)."
  },
  {
   "property": "C40",
   "status": "proved",
   "theorems": [
    "Scc.Index.c40_sample_indices",
    "Scc.Index.c40_sample_exact_uniform",
    "Scc.Index.c40_sample_zero"
   ],
   "note": "All array sizes and start indices."
  },
  {
   "property": "C41",
   "status": "proved",
   "theorems": [
    "Scc.Seq.c41_entry",
    "Scc.Seq.c41_remove_entry",
    "Scc.Seq.c41_get",
    "Scc.Seq.c41_replace",
    "Scc.Seq.c41_set_replace"
   ],
   "note": "All reachable tables used by one thread, all closures; HashMap, HashSet and HashIndex (HashCache::entry is not covered)."
  },
  {
   "property": "C42",
   "status": "proved",
   "theorems": [
    "Scc.Index.c42_grow_reason",
    "Scc.Index.c42_shrink_reason",
    "Scc.Index.c42_resize_settles"
   ],
   "note": "All load estimates and capacities."
  },
  {
   "property": "C43",
   "status": "partial",
   "theorems": [
    "Scc.Bucket.c43_index_update_skips",
    "Scc.Bucket.c43_cursor_remove_partial",
    "Scc.Seq.c43_cursor_partial"
   ],
   "note": "The property is false: c43_index_update_skips is a concrete counterexample (update moves the cursor behind unvisited entries). What holds without update: c43_cursor_remove_partial for one bucket, c43_cursor_partial for a whole index with any history, also in the middle of a resize: the walk ends, presents every entry and nothing else, and exactly once if the capacity does not fall to less than half from one step to the next (c11_repeats shows why that is needed)."
  },
  {
   "property": "C44",
   "status": "partial",
   "theorems": [
    "Scc.LeafConc.c44_spurious_duplicate",
    "Scc.LeafConc.c44_not_linearizable",
    "Scc.LeafConc.c44_spec_honest",
    "Scc.LeafConc.c44_honest_duplicate_partial"
   ],
   "note": "The property is false: c44_spurious_duplicate is an execution on a leaf that is empty throughout whose only insertion reports a duplicate (frozen when it tries to publish, thawed before it rolls back). The partial theorem covers all executions in which the leaf is not thawed."
  },
  {
   "property": "C45",
   "status": "partial",
   "theorems": [
    "Scc.Tree.c45_not_ascending",
    "Scc.Vine.c45_rollback",
    "Scc.Vine.c45_clear",
    "Scc.Tree.c45_undisturbed_partial",
    "Scc.Vine.c45_ascends_partial"
   ],
   "note": "The property is false: c45_not_ascending is an execution by one thread in which Iter yields a smaller key after a larger one (remove_range drops a subtree the iterator stands in, without marking its leaves); c45_rollback is an execution beside two insertions, without any removal, in which Iter yields 10, 20 and 10 again (a split is rolled back between two loads of jump); c45_clear is an execution beside one insertion and clear, with the same outcome (clear takes the mark of the leaf away). c45_undisturbed_partial covers trees that do not change during the iteration. c45_ascends_partial covers iterators as threads of their own beside any number of threads that insert, remove and peek, through all splits and merges, in all executions in which no rollback takes the mark of a leaf away; there is no clear in them."
  },
  {
   "property": "C46",
   "status": "partial",
   "theorems": [
    "Scc.Peek.c46_inversion",
    "Scc.Peek.c46_again_partial"
   ],
   "note": "The property is false: c46_inversion is an execution in which one peek returns a key and a later one does not, while the insertion of the key is in progress and nobody removes it. c46_again_partial: it holds if the insertion is over when the second call begins (the key is then found by every call during which it is neither removed, nor replaced, nor moved); one array, readers load by load beside the single stores of the owner of the lock."
  },
  {
   "property": "C47",
   "status": "proved",
   "theorems": [
    "Scc.Seq.c47_finite_map"
   ],
   "note": "Slot-level buckets, array replacement and incremental rehash together, one thread."
  },
  {
   "property": "C48",
   "status": "proved",
   "theorems": [
    "Scc.Seq.c48_cache_map"
   ],
   "note": "All call sequences by one thread, all hash functions, all capacity limits; slot-level buckets with their LRU lists, growing and shrinking included."
  },
  {
   "property": "C49",
   "status": "partial",
   "theorems": [
    "Scc.Seq.c49_insert_partial",
    "Scc.Seq.c49_cache_partial",
    "Scc.Seq.c49_cache_remove_partial",
    "Scc.Seq.c49_remove_partial",
    "Scc.Seq.c49_insert_violated",
    "Scc.Seq.c49_remove_violated",
    "Scc.Seq.turnTable_runs"
   ],
   "note": "The property is false: c49_insert_violated is a HashMap of capacity 512 that an insertion shrinks to 128, c49_remove_violated one that a removal grows to 1024; turnTable_runs shows that both tables are reached by histories. c49_insert_partial covers, after every history and for every hash function, insertions and updates in tables of capacity at most 256, or at most the minimum capacity in force, or with the bucket of the key at a multiple of the sample size. c49_remove_partial covers calls of remove, remove_if and get with removal in tables of capacity at most 256 of which less than 13/16 are in use, and in all tables of which no bucket is to hold more than 25 entries. c49_cache_partial covers the same insertions and updates in HashCache, where eviction is not counted as removal, and shows that they leave a cache at its maximum capacity as it is; c49_cache_remove_partial covers the same removals from HashCache, and all removals from a cache at its maximum capacity. The remaining cases are false, but not all of them were shown to be."
  },
  {
   "property": "C50",
   "status": "partial",
   "theorems": [
    "Scc.Tree.c50_calls_partial",
    "Scc.Tree.c50_iter_partial",
    "Scc.Tree.c50_insert_violated",
    "Scc.Tree.c50_insert_retry_violated",
    "Scc.Tree.c50_remove_violated"
   ],
   "note": "The property is false at two places: a panic of K::clone (or of a comparison right after it) in split_leaf leaves the two new leaves in the linked list although the old leaf stays in use, so removed keys are still yielded, or keys are yielded twice; a panic of a comparison in coalesce of a leaf node leaves a leaf that is deleted from the linked list but still a child, so entries inserted later cut the list. The partial theorems cover all histories with panics at the other places of insert and remove_if (listed as constructors in Tree/Unwind.lean). Missing: panics in remove_range, in InternalNode::coalesce, in iterators, allocation failures, other threads."
  },
  {
   "property": "C51",
   "status": "proved",
   "theorems": [
    "Scc.Grove.c51_legal"
   ],
   "note": "All executions of any number of threads, with all interleavings of single accesses to pointers, versions and locks; structural changes may begin at any time and at any place. Operations on one leaf are atomic here (C29, C44; the false Duplicate of C44 is left out). A removal may take away two entries (C52). Sequential consistency; clear, remove_range and iterators are left out; memory is not reclaimed in the model."
  },
  {
   "property": "C52",
   "status": "partial",
   "theorems": [
    "Scc.Grove.c52_remove_takes_two",
    "Scc.Grove.c52_once_partial"
   ],
   "note": "The property is false: c52_remove_takes_two is an execution of two threads in which one call of remove takes away two entries, because remove_if begins again when cleanup_root finds the root locked, although it has already removed an entry. c52_once_partial: without such a second attempt no call takes away more than one entry."
  },
  {
   "property": "C53",
   "status": "partial",
   "theorems": [
    "Scc.Grove.c53_violated",
    "Scc.Grove.c53_linearizable_partial",
    "Scc.Grove.c53_calm_partial"
   ],
   "note": "The property is false because of C52: c53_violated is an execution whose history no atomic map can produce. c53_linearizable_partial: all executions in which no call of remove_if takes away two entries are linearizable (what is atomic and what is left out is as in C51). c53_calm_partial: in particular all executions in which cleanup_root never finds the root locked."
  },
  {
   "property": "C54",
   "status": "partial",
   "theorems": [
    "Scc.Vine.c54_stale",
    "Scc.Vine.c54_faithful_partial"
   ],
   "note": "The property is false: c54_stale is an execution in which an iterator yields an entry that was removed before the iterator began (min skips an empty lower half and enters the node that is being split). c54_faithful_partial: it holds in all executions in which no min of an internal node finds a child without entries, that is, no iterator goes on from an empty child to the next one (Direct in Vine/Faith.lean); all splits, copies, merges, rollbacks and changes of the root are covered, at every point of the iteration. split_good (Vine/Straight.lean) is such an execution beside a split, an insertion and a removal. Missing: descents that pass an empty child without one being split beside it. What is atomic and what is left out is as in C51; the linked list of sdd is a contract (Vine/Model.lean); how many children fill a node is left open."
  },
  {
   "property": "C55",
   "status": "proved",
   "theorems": [
    "Scc.Table.c55_sound",
    "Scc.Table.c55_complete",
    "Scc.Table.c55_complete_entry",
    "Scc.Table.c55_once",
    "Scc.Table.c55_repeats",
    "Scc.Peek.bucket_yields",
    "Scc.Peek.bucket_skips",
    "Scc.Peek.bucket_once",
    "Scc.Peek.bucket_at_most_once"
   ],
   "note": "Two levels. The visit of one bucket by an iterator, load by load beside the single stores of the owner of the lock (bucket_*), and the way of Iter::next through the arrays beside the concurrent table with resizing (c55_*), where one visit of a bucket may yield what the first level allows; the composition of the two levels is by these statements and is not itself a theorem. c55_repeats shows that a key may be yielded twice while the index is resized, as documented. Keys that are updated meanwhile are excluded (C20, C43)."
  },
  {
   "property": "C56",
   "status": "partial",
   "theorems": [
    "Scc.Table.c56_violated",
    "Scc.Table.c56_linearizable_partial",
    "Scc.Table.c56_released_partial",
    "Scc.Table.c56_complete_partial"
   ],
   "note": "The property is false: c56_violated is an execution in which a failing allocation leaves a relocation after 32 entries were moved (see C57), the old bucket stays in use, and a thread that waited for it inserts a key that is stored in the new array already; no map has that history. It needs an allocator whose failures unwind instead of aborting the process, which is what the documentation speaks of. The partial theorems cover panics in comparisons and closures at every point, allocations that fail before anything was moved, and also a hash function that panics before anything was moved; c56_released_partial: the call is over, holds no lock, and changed nothing except, in a traversal, entries of the bucket it was in. A closure that panics after it has changed a value is an operation whose result is a panic. Not modelled: that the entry being moved when the allocation fails is dropped although its slot in the old bucket stays occupied."
  },
  {
   "property": "C57",
   "status": "partial",
   "theorems": [
    "Scc.Bucket.c57_violated",
    "Scc.Bucket.c57_violated_index",
    "Scc.Bucket.c57_reserve_partial",
    "Scc.Bucket.c57_small_partial"
   ],
   "note": "The property is false: reserve_slots reserves nothing for a bucket without a linked bucket (c57_violated), and in a HashIndex the next insertion may unlink the empty linked buckets just reserved (c57_violated_index). c57_reserve_partial: it holds if the bucket has a linked bucket or enough free slots in its data block, and, in a HashIndex, no entry of the data block is marked removed; c57_small_partial: at most 32 entries go into an empty bucket without allocating, which is why relocate_bucket need not reserve then."
  },
  {
   "property": "C58",
   "status": "proved",
   "theorems": [
    "Scc.Table.Cache.c58_linearizable",
    "Scc.Table.Cache.c58_source",
    "Scc.Table.Cache.c58_conserved"
   ],
   "note": "The concurrent table of C02 with eviction. Which entry of the bucket is evicted is left open here and whether one is evicted at all (C25, C48 say so for one thread). Taking the entry out and storing the new one is one step, since both happen under the exclusive lock of the bucket. A put whose allocation fails after the eviction is not modelled. c58_conserved is about histories without traversals and with closures that do not change values."
  },
  {
   "property": "C59",
   "status": "partial",
   "theorems": [
    "Scc.Async.c59_violated",
    "Scc.Async.c59_point_violated",
    "Scc.Async.c59_reader_violated",
    "Scc.Async.c59_reuse_violated",
    "Scc.Async.c59_live_partial",
    "Scc.Async.c59_bounds_partial",
    "Scc.Async.c59_writer_partial",
    "Scc.Async.c59_point_partial",
    "Scc.Async.c59_ready_partial",
    "Scc.Async.c59_relocation"
   ],
   "note": "The property is false: c59_point_violated evaluates bucket_index of a freed array after a suspension in incremental_rehash_async, c59_reader_violated evaluates len of a freed array after a suspension of for_each_reader_async, c59_reuse_violated uses an index with a smaller array at the same address. The partial theorems say that these are the only places: c59_live_partial (arrays), c59_bounds_partial (indices), c59_point_partial (everything is valid without suspension while helping, even if addresses are used again), c59_writer_partial (if no address is used again), c59_ready_partial (without suspension). c59_relocation holds in full. Epochs and locks are contracts; try_resize and the entry methods with a bucket already locked are not followed here."
  },
  {
   "property": "C60",
   "status": "partial",
   "theorems": [
    "Scc.Weak.c60_len_violated",
    "Scc.Weak.c60_race_violated",
    "Scc.Weak.c60_unlink_violated",
    "Scc.Weak.c60_entry_partial",
    "Scc.Weak.c60_found_partial",
    "Scc.Weak.c60_moved_partial",
    "Scc.Weak.c60_moved_late_partial"
   ],
   "note": "The property is false. c60_len_violated: len is stored and loaded with Relaxed, so a lookup can see the old bucket empty after a key was moved and the new bucket empty before. c60_race_violated: partial hashes are read without synchronisation while a removal overwrites one. c60_unlink_violated: fetch_sub with Release does not acquire, so that unlinking the old array does not publish what other helpers have moved (by the rules of the language; current processors order it). Partial: entries that are looked at and handed out are complete, unique and not dropped (c60_entry_partial); a key that stays in its bucket is found (c60_found_partial); a key that is moved meanwhile is found in the new bucket after the slots of the old one were looked at (c60_moved_partial, c60_moved_late_partial), or also after its len was seen to be 0 if len used Release and Acquire. Linked buckets and update are left out; locks and epochs are contracts."
  },
  {
   "property": "C61",
   "status": "partial",
   "theorems": [
    "Scc.Mow.c61_peek_violated",
    "Scc.Mow.c61_insert_violated",
    "Scc.Mow.c61_insert_illegal",
    "Scc.Mow.c61_outside_partial",
    "Scc.Mow.c61_elsewhere_partial",
    "Scc.Mow.c61_inside_partial"
   ],
   "note": "The property is false. A node on the lower border removes the key of its lower child before it makes that child the unbounded one; in between, the keys of the child, also those below the range, lead to the old unbounded child, which is then dropped. c61_peek_violated: a key outside the range that is there all the time is not found. c61_insert_violated: an insertion of a key outside the range succeeds and is lost. Partial: if no call on a key outside the range chooses its child in that gap, these calls are those of a map (c61_outside_partial); in leaf nodes and in all other internal nodes they always are (c61_elsewhere_partial); after remove_range only keys are found that were inserted since it began (c61_inside_partial). One node; its children are assumed to be atomic maps in which remove_range does its part; structural changes of the node by other calls are excluded by its lock."
  },
  {
   "property": "C62",
   "status": "partial",
   "theorems": [
    "Scc.Twig.c62_order_violated",
    "Scc.Twig.c62_register_partial",
    "Scc.Twig.c62_found_partial",
    "Scc.Twig.c62_turns_partial",
    "Scc.Twig.c62_own_partial",
    "Scc.Twig.c62_sync_partial",
    "Scc.Twig.c62_forward_partial",
    "Scc.Twig.c62_message_partial",
    "Scc.Twig.c62_fenced_partial"
   ],
   "note": "By the rules of the memory model the property is false for several keys: c62_order_violated is an execution in which two threads insert a key each and then do not find the key of the other one. It needs two leaves and no fence between the two calls of a thread. Partial: for each key there is one order, in which insertions and removals act on the newest value (c62_turns_partial), and lookups see nothing older than what the thread knows: by its own calls (c62_own_partial, c62_forward_partial), by synchronisation (c62_sync_partial), and by what was known to the threads that wrote what it has found (c62_message_partial). c62_register_partial is the statement all of these follow from. c62_fenced_partial: if each call is preceded by a sequentially consistent fence of its thread, the property holds for all keys together. One leaf node, which is not split or retired itself; no remove_range; locks and epochs are contracts; entries are written before they become reachable (C20, C23)."
  },
  {
   "property": "C63",
   "status": "proved",
   "theorems": [
    "Scc.Knot.c63_self",
    "Scc.Knot.c63_chain",
    "Scc.Knot.c63_no_cycle",
    "Scc.Knot.c63_can_step",
    "Scc.Knot.c63_end",
    "Scc.Knot.c63_over",
    "Scc.Knot.c63_complete",
    "Scc.Knot.c63_holder",
    "Scc.Knot.c63_reachable",
    "Scc.Knot.c63_tree",
    "Scc.Knot.c63_two"
   ],
   "note": "Any number of threads, any tree; a step is one lock operation or a change of one node with its lock held. c63_no_cycle: nobody waits in a circle; c63_chain: at most two threads wait one after another (c63_two: this happens). c63_end: every execution in which no new attempt begins is finite; c63_over: it ends with all calls over; c63_complete: so all calls in progress can be completed. c63_reachable: no poisoned lock below the root, because the nodes in use form a tree (c63_tree) and are replaced before they are poisoned. Keys, leaves and memory are left out; locks are fair enough to wake those who wait when a lock is released or poisoned. That an attempt succeeds is not claimed: it may have to begin again because of others."
  },
  {
   "property": "C64",
   "status": "proved",
   "theorems": [
    "Scc.Slot.c64_exclusive",
    "Scc.Slot.c64_write_known",
    "Scc.Slot.c64_read_known",
    "Scc.Slot.c64_initialised",
    "Scc.Slot.c64_stable",
    "Scc.Slot.c64_own",
    "Scc.Slot.c64_once",
    "Scc.Slot.run_reuse",
    "Scc.Slot.run_view",
    "Scc.Slot.run_drop"
   ],
   "note": "Release/acquire memory with the orderings of the code. c64_exclusive: nobody reads or writes a slot another thread is about to write; c64_write_known, c64_read_known: accesses are ordered by happens-before; c64_initialised: a slot that is read has a pair in it; c64_stable: references stay valid; c64_own: rollback returns the very pair; c64_once: given back or dropped exactly once. Trusted: a leaf is reached by other threads only through a release/acquire pair after it was filled, and dropped only when no thread can use it (sdd)."
  },
  {
   "property": "C65",
   "status": "partial",
   "theorems": [
    "Scc.Alloc.c65_partial",
    "Scc.Alloc.c65_apart",
    "Scc.Alloc.c65_usual",
    "Scc.Alloc.c65_zero_size",
    "Scc.Alloc.c65_set_of_unit",
    "Scc.Alloc.c65_cache_huge",
    "Scc.Alloc.c65_cache_corrupt",
    "Scc.Alloc.c65_map_huge",
    "Scc.Alloc.c65_collect",
    "Scc.Alloc.c65_short",
    "Scc.Alloc.c65_short64",
    "Scc.Alloc.c65_leak",
    "Scc.Alloc.c65_violated"
   ],
   "note": "Violated: c65_zero_size (entries without a size: a request of 0 bytes), c65_cache_corrupt (HashCache with a capacity above 2^61 in a release build: 2^57 buckets in 128 bytes), c65_map_huge and c65_collect (more than isize::MAX bytes requested), c65_short (large entries, product cut off: slots outside the memory although both requests are valid), c65_leak (a panic loses the buckets). c65_partial: the full statement if entries have a size and both sizes fit in isize::MAX; c65_usual: this is so with 64 bits up to capacity 2^40 and entries of 64 kB."
  },
  {
   "property": "C66",
   "status": "proved",
   "theorems": [
    "Scc.Haze.c66_linearizable",
    "Scc.Haze.c66_exclusive",
    "Scc.Haze.c66_race",
    "Scc.Haze.c66_move",
    "Scc.Haze.c66_target",
    "Scc.Haze.c66_array",
    "Scc.Haze.c66_link",
    "Scc.Haze.c66_replace",
    "Scc.Haze.c66_grow",
    "Scc.Haze.c66_own",
    "Scc.Haze.c66_stale",
    "Scc.Haze.run_pick",
    "Scc.Haze.run_read",
    "Scc.Haze.run_drop"
   ],
   "note": "Release/acquire memory with the orderings of the code; loads of the pointer to the array may be stale. c66_linearizable: one order with right results that agrees with happens-before; c66_exclusive, c66_race, c66_move: accesses to a bucket exclude each other and are ordered; c66_target: relocation targets are alive, so unwrap_unchecked is sound; c66_array: only acquired arrays are used; c66_link, c66_replace: the pointer that is replaced is the one checked and linked. c66_stale: the order is that of happens-before, not of a clock. Trusted: the locks of saa acquire and release, memory is not reused under a guard (sdd)."
  },
  {
   "property": "C67",
   "status": "partial",
   "theorems": [
    "Scc.Mist.c67_unlink_violated",
    "Scc.Mist.c67_partial",
    "Scc.Mist.c67_exact_partial",
    "Scc.Mist.c67_begin",
    "Scc.Mist.run_lookups"
   ],
   "note": "The property is false by the rules of the language: c67_unlink_violated is an execution in which a thread does not find the key that it has inserted itself, because the link to the old array was removed by a thread that has not acquired the relocation of another one (hash_table.rs 1135 has Release only, defect 27). Proved for the code with Acquire there and where a poisoned lock is found, and without OccupiedEntry::update (C20); a search of a bucket is one read of a history (C60, defect 25). c67_partial: the result is the value of the key after a first part of the calls, and no later call on the key happens before the lookup; c67_exact_partial: with all calls known, the present value; c67_begin: what the lookup knows when it begins is what its thread knows. run_lookups: a lookup that reads the old bucket after the entry was moved, one that sees the move, and one that finds nothing."
  },
  {
   "property": "C68",
   "status": "partial",
   "theorems": [
    "Scc.Coppice.c68_violated",
    "Scc.Coppice.c68_trees_partial",
    "Scc.Uproot.c68_partial",
    "Scc.Uproot.c68_clear",
    "Scc.Uproot.run_clear"
   ],
   "note": "c68_trees_partial: for insert, remove_if and peek with all steps of Verif/Grove in every tree (locks, splits, merges, rollback when the exchange of the root fails because of clear). Missing: executions in which one call of remove_if takes away two entries (C52), where the property is false: c68_violated. c68_partial and c68_clear: for calls with any effect on one key, each of which acts on its tree in one step; the contents at the end and what clear leaves are there."
  },
  {
   "property": "C69",
   "status": "proved",
   "theorems": [
    "Scc.Perch.c69_queue",
    "Scc.Perch.c69_touch",
    "Scc.Perch.run_wait"
   ],
   "note": "For the discipline of the code: locks are released before the guard under which they were taken is dropped, and a call has at most one entry in a queue. What saa and sdd do is assumed: entries get into a queue only while the lock is held, and leave it when it is released or poisoned; memory is returned when the guards are gone that were there when the last reference was dropped. run_wait: a task waits for a node that is unlinked, and is woken before the memory is returned."
  }
 ]
}