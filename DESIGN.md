# Formal model of scc 3.4.8 — design

Source under study: `/repo` (crate `scc`, version 3.4.8). Model: Lean 4.33.0, `/verif/lean`.
Properties: `/verif/properties.jsonl` (C01 …). Claim status: `/verif/MANIFEST.json`.
Mutation log: `/verif/seeded/LOG.jsonl`.

## Trusted base

* Lean's kernel (every theorem is re-checked by it) and at most the three standard axioms
  `propext`, `Classical.choice`, `Quot.sound`; the last section lists them theorem by theorem.
  No own axioms, no `sorry`, no compiled evaluation. Mathlib is not used so far.
* The correspondence between the Rust text and the Lean definitions. It is made by hand; each
  definition cites the file and lines it follows and says where it simplifies.
* Memory model: all interleaving models except `Verif/Weak`, `Verif/Twig`, `Verif/Slot`, `Verif/Haze` and `Verif/Mist` are *sequentially consistent*.
  Those five follow the release/acquire/relaxed rules access by access (C60, C62, C64, C66, C67).
* Externals assumed correct, because their sources are not part of the repository:
  `saa::Lock` (mutual exclusion, poisoning), `sdd` (epoch based reclamation,
  `Shared`/`AtomicShared` reference counting, `LinkedList` of leaves), `Hash`/`Eq`/`Ord`
  implementations of user keys (assumed lawful, pure and not panicking, as the crate documentation
  demands).

## Method

Models are total functions over `Nat`, `List`, `Option`, `BitVec` and structures, or inductive step
relations. Sequential properties: refinement to a small specification (finite map `K → Option V`, list
of keys in recency order, sorted association list). Concurrent properties: transition systems whose
steps are the atomic accesses (or lock-protected sections) of the code, proved by invariants and forward
simulations over all reachable states, for any number of threads. Specifications live in `Spec` files
that do not use model helpers. Beside the property theorems, `example`s and concrete executions show that
their hypotheses can be met.

## What is modelled

| directory | code | granularity |
|-----------|------|-------------|
| `Verif/Index` | `hash_table.rs`: `from_index_to_range`, `sample`, decision part of `try_resize`, `capacity_from_size_hint`; `bucket_array.rs`: `new`, `bucket_index`; `hash_cache.rs`: `with_capacity_and_hasher` | arithmetic on 64-bit words |
| `Verif/Rehash` | `hash_table.rs`: `start_incremental_rehash`, `end_incremental_rehash`, the use of their results in `incremental_rehash_*` | any number of helpers, a CAS loop is one step |
| `Verif/Reserve` | `hash_table.rs`: `reserve_capacity`, the `RESIZING` bit of `try_resize`; `Reserve::drop`; `capacity_range` | any number of threads, one access per step, wrapping arithmetic |
| `Verif/Lru` | `bucket.rs`: `DoublyLinkedList` | function by function on the array of links |
| `Verif/Bucket` | `bucket.rs`: `Bucket`, `LinkedBucket`, `EntryPtr`, `extract_from`; cursor of `LockedBucket`; `OccupiedEntry::update` of `HashIndex` | function by function, for a thread that owns the bucket lock |
| `Verif/Table` | `hash_table.rs`: `reader/writer/optional_writer/try_*`, `for_each_*`, `dedup_bucket_*`, `relocate_bucket_*`, `incremental_rehash_*`, `try_resize`, `has_entry`, `num_entries`; futures dropped at every wait; calls that unwind (`Table/Panic.lean`); the eviction of `HashCache` (`Table/Cache.lean`) | any number of threads, one shared access per step |
| `Verif/Async` | `async_helper.rs`: `AsyncGuard`; `hash_table.rs`: `reader_async`, `writer_async`, `optional_writer_async`, `for_each_*_async`, `incremental_rehash_async`, `dedup_bucket_async`, `relocate_bucket_async` | one call beside arbitrary other threads; addresses of arrays, guards, suspension; no contents |
| `Verif/Leaf` | `tree_index/leaf.rs`: `Dimension`, all leaf operations, `Scanner`, `optimal_boundary`, `freeze_and_distribute`, `remove_range` | 64-bit word, function by function, one thread |
| `Verif/LeafConc` | `leaf.rs`: `insert`, `post_insert`, `rollback`, `remove_if`, read operations, `freeze`, `thaw` | any number of threads, one access per step |
| `Verif/Tree` | `tree_index.rs`: insert, remove, remove_if, remove_range, peek, clear, len, is_empty, `Iter`, `Range`, Clone, PartialEq; `node.rs`, `internal_node.rs`, `leaf_node.rs`; the linked list of leaves | function by function on a heap of leaves, one thread; iterators with calls in between; `insert` and `remove_if` left by a panic |
| `Verif/Peek` | `bucket.rs`: `insert`, `insert_overflow`, `insert_entry`, `mark_removed`, `reserve_slots`, `extract_from`, `clear_unreachable_entries`, `drop_unreachable_entries`, `search_entry`, `search_data_block`, `move_to_next` of an `INDEX` bucket; `OccupiedEntry::update` | one owner of the lock and any number of lock-free readers, one load or store per step |
| `Verif/Peek/Table.lean` | `hash_table.rs`: `peek_entry` | beside the transition system of `Verif/Table`; what one search of a bucket may return is taken from `Verif/Peek/Link.lean` |
| `Verif/Crowd` | where the pairs of a hash container are: `bucket.rs` operations, `relocate_bucket`, `try_resize`, `incremental_rehash_*`, `Drop for BucketArray` | any number of threads and arrays; a step is one operation on a locked bucket (slot level), one relocation, or one step of the bookkeeping of `Verif/Rehash` |
| `Verif/Grove` | `tree_index.rs` `insert_*`, `remove_if_*`, `peek*`; `node.rs` `split_root`, `cleanup_root`; `internal_node.rs` and `leaf_node.rs` `insert`, `remove_if`, `search_*`, `split_leaf`, `split_node`, `coalesce`, `commit`, `rollback` | any number of threads; a step is one operation on a leaf, one load or store of a pointer, one change of the keys of a node, or one lock operation; splits and merges may begin at any time and place; no `remove_range`, iterators, linked list of leaves, panics; nothing is freed |
| `Verif/Vine` | as `Verif/Grove`, with the linked list of leaves in `leaf_node.rs` (`split_leaf`, `coalesce`, `commit`, `rollback`), `tree_index.rs` `Iter::next`, `min` of both kinds of nodes, `leaf.rs` `jump` | any number of threads and iterators; a step of an iterator is one load of a pointer, a tag, a version, or a snapshot of a leaf; the list of `sdd` by contract; the number of children of a full node is left open |
| `Verif/Weak` | `bucket.rs`: `insert`, `insert_entry`, `mark_removed`, `extract_from`, `drop_unreachable_entries`, `search_entry`, `search_data_block`; `hash_table.rs`: counting of helpers, unlinking the old array | any number of threads under the release/acquire/relaxed rules: every load may return any value its thread may still see; buckets without linked buckets |
| `Verif/Mow` | `internal_node.rs` and `leaf_node.rs` `remove_range`, `RemoveRangeState::next`, beside `search_*`, `insert`, `remove_if` | one node; any number of threads; a step is one change of the keys of the node, one load or store of a pointer, or one operation on a child; children are atomic maps |
| `Verif/Twig` | `leaf_node.rs` `search_*`, `insert`, `remove_if`, `split_leaf`, `coalesce`; `leaf.rs` `insert`, `post_insert`, `rollback`, `remove_if`, `search_*`, `min_greater_equal`, `validate`, `freeze_and_distribute`, `thaw` | one leaf node under release/acquire/relaxed memory; any number of threads; a step is one access to a word or a pointer; leaves without capacity |
| `Verif/Knot` | `internal_node.rs` `split_node`, `commit`, `rollback`, `remove_range`, `coalesce`; `leaf_node.rs` the same; `node.rs` `split_root`, `cleanup_root`; `tree_index.rs` `clear`, `insert`, `remove_range`; `async_helper.rs` `TryWait` | locks, children and the root of a tree of any shape; any number of threads; no keys; a step is one lock operation or one change of a node by the one who holds its lock |
| `Verif/Slot` | `leaf.rs` `insert`, `post_insert`, `rollback`, `write`, `take`, `key_at`, `value_at`, `remove_if`, `freeze`, `thaw`, `drop` | any number of threads under the release/acquire rules; every access to the word and to the slots is a step; ranks reduced to free, removed, reachable; the results of comparisons are left open |
| `Verif/Alloc` | `bucket_array.rs` `new`, `bucket_array_layout`, `bucket`, `data_block`, `drop` | machine words of 16 to 64 bits with or without overflow checks; any allocator |
| `Verif/Haze` | `hash_table.rs` `reader_sync`, `writer_sync`, `optional_writer_sync`, `allocate_bucket_array`, `dedup_bucket_sync`, `relocate_bucket_sync`, `incremental_rehash_sync`, `try_resize` | any number of threads under the release/acquire rules; the pointer and links may be read stale; buckets are maps; helping at any time; targets of a relocation locked and filled in one step |
| `Verif/Mist` | `hash_table.rs` `peek_entry` beside all of `Verif/Haze` | any number of threads under the release/acquire rules; a search of a bucket is one read of the history of the key in it; without `OccupiedEntry::update` |
| `Verif/Uproot` | `tree_index.rs` `clear` beside calls on single keys; the root pointer | any number of threads, trees and calls; a call acts on a tree in one step |
| `Verif/Coppice` | `tree_index.rs` `clear` beside `insert`, `remove_if`, `peek` | any number of calls and trees; each tree is one of `Verif/Grove` |
| `Verif/Perch` | `async_helper.rs` `AsyncWait`; where calls of `TreeIndex` wait | any number of threads, tasks and nodes; the contents of nodes are left out |
| `Verif/Gc` | `hash_index.rs`: `defer_reclaim`, `reclaim_memory`, `dealloc_garbage`, `Drop`; the places in `hash_table.rs` that create, link, unlink and retire arrays | any number of threads, one access per step; epochs by contract; addresses and array identities distinguished |
| `Verif/Scope` | `exit_guard.rs`; the guarded part of `incremental_rehash_*` | all control-flow paths of a small language |
| `Verif/Bucket/Cells.lean`, `Verif/Seq` | `hash_table.rs`, `bucket_array.rs` with the buckets of `Verif/Bucket`: all operations of `HashMap`, `HashSet` and `HashIndex`, Entry API, cursors, `hash_index::Iter`, Clone, PartialEq, FromIterator, serde, drop | slot level, one thread, both arrays and the rehash progress; answers of the epoch check arbitrary |

## Property by property

| id | status | what is modelled | how it is proved |
|----|--------|------------------|------------------|
| C01 | proved | the transition system of C02 with one user thread at a time, helpers and resizers beside it | corollary of the simulation |
| C02 | proved | any number of threads; per-bucket locks with poisoning, array pointer, linked array, relocation entry by entry, resize, table drop | invariant over all reachable states and forward simulation to an atomic map |
| C03 | proved | same transition system as C02 | corollaries of the invariant: each pair is in exactly one live bucket in every reachable state |
| C04 | proved | metadata word of `start/end_incremental_rehash`, any number of helpers, success, failure | inductive invariant: every bucket range below the index is done or owned |
| C05 | proved | `from_index_to_range`, `bucket_index` on 64-bit words | arithmetic |
| C06 | proved | `BucketArray::new`, constructors, resize target of `try_resize`; the capacity through all histories of the one-thread tables | arithmetic (powers of two); invariant over all histories of HashMap, HashSet, HashIndex and HashCache |
| C07 | proved | the `minimum_capacity` word with CAS / fetch_add / fetch_sub / RESIZING bit | inductive invariant over all interleavings |
| C08 | partial (false of the code) | `capacity_range` = raw load of that word | **violated**: negation with a reachable witness; `_partial`: holds whenever the bit is clear |
| C09 | proved | traversal position of `for_each_*` with arbitrary resizes between buckets | invariant over hash prefixes |
| C10 | proved | traversal with `retain`/`clear` in the table model; slot-level pass over one bucket | simulation of traversals; induction over the chain |
| C11 | partial (false of the code) | `begin`, `next`, `remove_and` over the slot-level table with array replacement | **violated**: concrete witness; `_partial`: invariant on the entries still to come |
| C12 | proved | `Bucket`: bitmaps, partial hashes, overflow chain | refinement to association list / finite map |
| C13 | proved | `num_entries`, `has_entry` in the table model | scan invariant |
| C14 | partial (false of the code) | `has_entry` loads interleaved with a resize | **violated**: negation with a reachable witness |
| C15 | proved | where every pair is, in any number of arrays, while threads insert, remove, mark, write, evict, relocate, resize, retire and free; `Drop for BucketArray` with the final word of the rehash (`Verif/Crowd`). Also the sequential table, call by call | multiset invariant: handed in = handed back + dropped + held; the word of an array nobody works on counts only buckets that were moved; induction over the steps |
| C16 | partial (false of the code) | async relocation as a state machine with cancellation points | **violated** for enlarging resizes: negation with witness; `_partial`: cancellation is safe at every other point. That a leaked lock blocks for ever holds unless the blocked call itself unwinds (hypothesis of `c16_leak_blocks`) |
| C17 | proved | try-lock paths of relocation, dedup, incremental rehash | lock-set equality before/after on failure |
| C18 | proved | transition system of C02 | progress theorem: an enabled step always exists |
| C19 | proved | the search of a bucket against single stores of the owner of the lock (`Verif/Peek`), and the walk of `peek_entry` over the arrays of the concurrent table (`Verif/Peek/Table.lean`) | invariants over interleavings at both levels; `step_effect` shows that the stores group to the steps of the table |
| C20 | partial (false of the code) | same, with `update` | **violated**: negation with a reachable witness; `_partial` for C19 operations |
| C21 | proved | removed slots, epoch stamps, recycling under an epoch-based-reclamation assumption | invariant |
| C22 | partial (false of the code) | `Iter::next` of HashIndex as a state machine on a quiescent index, also with two arrays | **violated** (fusedness): general and concrete witness; `_partial`: exact enumeration up to the first `None` |
| C23 | partial (false of the code) | `defer_reclaim`, `dealloc_garbage`, `reclaim_memory`, `Drop` of HashIndex with the pointers between bucket arrays, guards and epochs; addresses may be reused; any number of threads, one access per step | **violated**: two executions (`c23_violated_address`, `c23_violated_again`); `_partial`: invariant over all reachable states without the two kinds of comeback; progress and completeness of `Drop` |
| C24 | proved | `DoublyLinkedList` evict/remove/promote on the array of links | refinement to a duplicate-free list |
| C25 | partial (false of the code) | `put`, `get`, `remove`, `retain`, iteration over the slot-level table with the LRU list of every bucket and incremental resizing | invariant over all histories without shrinking: the LRU lists are the parts of a global order of use; in full for caches of maximum capacity 64; **violated** after growing: kernel-checked witness |
| C26 | proved | the same histories | invariant: no bucket has overflow blocks, relocation into a finer array never needs any; counting per bucket; kernel-checked witness for a cache that shrinks |
| C27 | proved | `Dimension` as a 64-bit word | bit arithmetic |
| C28 | proved | leaf operations, sequential | refinement to sorted list |
| C29 | proved | `insert`, `post_insert`, `rollback`, `remove_if`, reads, `freeze`, `thaw` as interleaved single accesses to the word and the slots, any number of threads | invariant (reserved slots are exclusive, snapshots stay readable) and forward simulation to an atomic sorted list |
| C30 | proved | the transition system of C29 | invariant, case analysis over the steps |
| C31 | proved | tree: leaves, leaf nodes, internal nodes, split, coalesce, root change, linked list of leaves, one thread | refinement to a finite map; invariant on the tree (bounds, heights, links) |
| C32 | proved | `Iter`, `Scanner`, `len`, `is_empty` on the tree model | invariant: the position of the scanner in the list of leaves |
| C33 | proved | `Range`, `set_check_upper_bound` on the tree model | same, plus the bound check |
| C34 | proved | `remove_range` of the index, inner nodes, leaf nodes and leaves | structural induction on height |
| C35 | partial (false of the code) | iterators after exhaustion | **violated**: general negation for `Iter`, witness for `Range`; `_partial` up to the first `None` |
| C36 | partial (false of the code) | `Range` with modifications between its steps | **violated**: two witnesses; `_partial` on a tree at rest |
| C37 | proved | `optimal_boundary`, `freeze_and_distribute`, node splits | arithmetic / list reasoning |
| C38 | partial | `Clone`, `PartialEq`, `FromIterator` and the serde visitors over the slot-level table; Tree: the same over the tree model | induction over the sequence of pairs, equality by mutual inclusion; **violated** for `HashCache`: witnesses |
| C39 | proved | a language of scopes, guards and control flow with all ways to leave a scope; `ExitGuard::new`, `forget`, `Drop`, `DerefMut` | induction over executions: the events of each variable are accepted by a small automaton; instance: `end_incremental_rehash` is called exactly once per started rehash |
| C40 | proved | `sample` | arithmetic |
| C41 | proved | `entry`, `get`, `OccupiedEntry`, `VacantEntry`, `replace` over the slot-level table | refinement of a finite map, call by call |
| C42 | proved | decision part of `try_resize` | arithmetic |
| C43 | partial (false of the code) | `EntryPtr` cursor on a bucket chain, `OccupiedEntry::update`; the cursor of a whole table (`Seq/Model.lean`) | **violated**: concrete witness; `_partial` for visits without update, of one bucket and of a whole index (`Seq/IndexCursor.lean`) |
| C44 | partial (false of the code) | the transition system of C29 with `freeze` and `thaw` | **violated**: concrete execution, and proof that no atomic leaf shows it; `_partial`: executions without `thaw` are those of an atomic leaf |
| C45 | partial (false of the code) | iterators with modifications between the calls (`Tree`); iterators as threads of their own beside insertions and removals (`Vine`), and beside `clear` (`Vine/Wipe.lean`) | **violated**: witnesses in each model; `_partial` on a tree at rest, and beside other threads as long as no `rollback` and no `clear` takes a mark away |
| C46 | partial (false of the code) | readers and the single stores of an insertion into one bucket | **violated**: negation with a reachable witness; `_partial` (`Peek/Again.lean`): what was inserted before the second call began is found by it, by following the obligation of the reader through all steps |
| C47 | proved | all one-thread operations over slot-level buckets, both arrays and the rehash progress word | invariant and refinement by induction over the calls |
| C48 | proved | all one-thread operations of `HashCache` over slot-level buckets with LRU lists, both arrays and the rehash progress word | invariant and refinement by induction over the calls |
| C49 | partial (false of the code) | insertions, updates and removals on the slot-level table with `try_enlarge`, `try_shrink`, `try_resize` and the sampling windows | arithmetic of the windows over all histories: insertions (`Seq/Resize.lean`) for tables of capacity at most 256, at most the minimum capacity, or an aligned bucket; removals (`Seq/Fewer.lean`) for tables of capacity at most 256 that are less than 13/16 full, or without a bucket of more than 25 entries; **violated** otherwise: two kernel-checked witnesses; `HashCache` (`Seq/CacheFull.lean`): the same insertions, and none resizes a cache at its maximum capacity; removals from it in `Seq/CacheFewer.lean` |
| C50 | partial (false of the code) | `insert` and `remove_if` of the tree left by a panic at each call of user code, with what the exit guards do (`Tree/Unwind.lean`) | the states left behind obey the tree invariant with the same entries, by induction over the height and the rounds, through `rollback` for prepared splits; **violated** at two places, with kernel-checked witnesses |
| C51 | proved | `Verif/Grove`: as for C52. The map, the running calls and what their keys were mapped to since they began are in `Verif/Grove/Spec.lean`, which does not refer to nodes, leaves or pointers. The exchange of the root may fail at any time, and a removal may go on in another tree, as `clear` makes them do. | Invariant (`Verif/Grove/Inv.lean`) that gives every key one search path through the tree, with the phases of splits and merges in progress; every step of a thread (`Verif/Grove/Legal.lean`) and every structural step (`Verif/Grove/Changes.lean`) keeps it. A thread that has followed an outdated pointer is still at a leaf that holds its key, or at one that was frozen or retired (`Good`), and the version checks make it start again (`PcOk`). |
| C52 | partial (false of the code) | `Verif/Grove`: `insert`, `remove_if` and `peek` of a `TreeIndex` by any number of threads as sequences of single accesses to pointers, versions and locks, with splits, merges and changes of the root; an event for every entry added or taken away. | Execution found by hand and checked by evaluation (`exec` is sound for `Step`); the partial theorem by induction over executions. |
| C53 | partial (false of the code) | As C51. The atomic map and its histories are `Atomic` in `Verif/Grove/Atomic.lean`: a call, one moment at which everything is done (`Op.act`), a return. The exchange of the root may fail at any time, and a removal may go on in another tree, as `clear` makes them do. | `legal_linearizable` turns what C51 says about an execution into a history of the atomic map: by induction over events, for every choice of the moments that C51 allows. The counterexample is the execution of C52; that its history is not one of the atomic map follows by counting entries. |
| C54 | partial (false of the code) | the model of C51 with the linked list of leaves and iterators as threads of their own (`Vine/Model.lean`); the property is `Faithful` in `Vine/Spec.lean` | **violated**: kernel-checked execution; `_partial` for all executions in which no descent passes an empty child: an order on all leaves ever linked (`VInv`: links ascend in it, leaves in use ascend in it with disjoint ranges, the leaves being replaced beside their replacements) that only grows (`Flow`), kept by every step; an iterator that stands at a leaf has yielded all lasting entries up to it |
| C55 | proved | `Peek/Scan.lean`: the visit of a bucket by an iterator in the model of C19 (single loads and stores); `Peek/IterTable.lean`: `Iter::next` through the arrays beside all steps of `Table/Model.lean` | a visit yields only slots it saw and each slot once (`visit_exact`: an entry is ahead of the cursor, or yielded once and behind it); in the table an entry moves to newer arrays only, so a key that is always there is in the array being gone through at a bucket not yet left, or in a newer one (`Todo`), or was yielded |
| C56 | partial (false of the code) | `Table/Model.lean`: unwinding at every point of a call (`panic`, `critPanic`, `tvPanic`, `rlPanic`, `rlPanicHelp`) in addition to dropped futures; `Table/Panic.lean`: a failing allocation after 32 entries were moved to one target | **violated**: negation with a witness execution of three threads (`Table/PanicWitness.lean`) and a proof that no map has this history; `_partial`: the invariants and the simulation of C02, C17, C18 with the new steps |
| C57 | partial (false of the code) | `Bucket/Reserve.lean`: `reserve_slots` and `insert` of `Bucket/Model.lean` | **violated** for buckets without a linked bucket, and in a `HashIndex` with removed entries: negations by computation; `_partial`: free slots are counted, `reserve_slots` makes them at least n, an insertion takes one and allocates only if there is none |
| C58 | proved | `Op.evict`, `Step.commitEvict` in `Table/Model.lean`: a put finds its key absent and, under the lock of the bucket, any other entry of the bucket is taken out and the new one stored | forward simulation of C02 to an atomic map whose put may evict (`Spec.Step.linEvict`); invariants of that map over all its executions: every pair present or shown was offered, and stored = handed out + present, counting results fixed but not yet returned (`Table/Cache.lean`) |
| C59 | partial (false of the code) | `Verif/Async/Model.lean`: one asynchronous call, access by access (`Pc.touches`), beside all other threads, which create, replace, empty, retire and free arrays; memory is addressed and addresses may be used again; each kind of suspension can be switched on and off (`Mode`) | invariants over all reachable states: what keeps each array the call refers to (guard, lock, a rehash that was started) in `Async/Proof.lean`, the lengths its indices were computed for in `Async/Fit.lean`; three concrete executions for the violations (`Async/Witness.lean`) |
| C60 | partial (false of the code) | `Verif/Weak/Model.lean`: the two bitmaps, `len`, the cells of partial hashes and entries, `rehashing_metadata` and `linked_array`, each with the history of all its values; threads have views, and loads and stores carry the orderings of the code. Locks and epochs by contract. Linked buckets and `update` are left out | an invariant over all reachable states that relates the histories of the bitmaps and of `len` to the life of each slot (`Weak/Inv.lean` to `Weak/Proof.lean`), then induction over the execution from the insertion on (`Weak/Found.lean`); three concrete executions for the violations (`Weak/Witness.lean`) |
| C61 | partial (false of the code) | `Verif/Mow/Model.lean`: one node of either kind with its keys, version and pointers; `remove_range` on it access by access in all three ways it is called; any number of threads that choose a child, load its pointer, validate and act in the child. Children are atomic maps from which entries in the range disappear one by one. No structural changes by others (they need the lock) | an invariant over all reachable states: the child responsible for a key outside the range is always the same, and the children that may still have old entries in the range are among those still to be treated (`Mow/Inv.lean` to `Mow/Main.lean`); answers are compared with a map (`Mow/Spec.lean`); two concrete executions for the violations (`Mow/Props.lean`) |
| C62 | partial (false of the code) | `Verif/Twig/Model.lean`: one leaf node with the word of `children`, the pointers to the leaves and the words of the leaves, each with all values written to it and the views that come with them; any number of threads that look up, insert and remove, split leaves and remove retired ones, access by access with the orderings of the code. A leaf has no capacity; the node is not split or retired; the lock passes on the view of the one before | an invariant over all reachable states (`Twig/Inv.lean` to `Twig/Links.lean`): whatever was written, all ways to read a word, a pointer and a leaf that pass validation show the history of a key in the right order, and views contain witnesses of what they know; a second one (`Twig/Cause.lean` to `Twig/Seen.lean`): the views on such a way bring what the one who wrote the value knew; with them the model is simulated by a map with histories (`Twig/Spec.lean`, `Twig/Refine.lean`), from which the theorems follow (`Twig/Laws.lean`, `Twig/Props.lean`); a concrete execution for the violation; with fences (`Twig/Sched.lean`, `Twig/Fence.lean`): a fence is a pair of synchronisations with one thread that stands for all fences; every value is ranked by the first fence that makes it known, every lookup by this and by its own fence, and the calls sorted by rank act one after the other |
| C63 | proved | `Verif/Knot/Model.lean`: the nodes of a tree with their children, locks and the root; any number of threads that split leaf nodes and climb to the root with locks held, put copies in place, release and poison locks one by one, remove ranges from the root downwards with locks held, remove retired children, clean up and clear the root, and wait. All branches that can fail may fail at any time. Keys, leaves, entries and memory reclamation are left out | an invariant over all reachable states (`Knot/Inv.lean`, `Knot/Steps.lean`): a thread owns exactly the locks it knows of; nodes in use form a forest (`Knot/Forest.lean`: this survives the replacement of a chain of full nodes by copies); `remove_range` holds a set of nodes in which each one has its parent, unless it was the root. If one waits with locks held for a node, the parent of the node is among them, so that the holder of the node does not hold its parent, hence is not itself on the way down: it does not wait. For termination (`Knot/Props.lean`), phases of the threads, then free locks and pending releases decrease in lexicographic order |
| C64 | proved | `Verif/Slot/Model.lean`: the metadata word of a leaf with its history of values, the slots with numbered reads and writes, and what each thread and each value of the word knows of them; `insert`, `post_insert`, `rollback`, removal, lookups, freezing and thawing, each atomic access a step with the ordering of the code. Of a rank only free, removed or reachable is kept; `compare_exchange` compares such words, so it succeeds at least whenever that of the code does, and may always fail; panics leave a slot reserved. Pairs are numbered | an invariant over all reachable states (`Slot/Inv.lean`): the last value of the word knows of all accesses to free slots (`rollback` releases them), so that who reserves one with `Acquire` knows of them too; a reserved slot has one owner and was never reachable before; values in which a slot is reachable know of all writes to it, and such a slot never becomes free. `Slot/Pairs.lean`: pairs are in slots, in hands of threads or given back, each in one place. The theorems in `Slot/Props.lean` follow; runs show slots that are reused after a rollback, read after removal, and left behind by a panic |
| C65 | partial | `Verif/Alloc/Model.lean`: `BucketArray::new` with the arithmetic of machine words of any width, with and without overflow checks, both requests to an allocator that answers with any address or fails, the alignment of the buckets, the addresses of buckets and slots, and what `drop` gives back. The size of a bucket is 64 or 128 bytes (bucket.rs 1320), that of an entry is arbitrary | by arithmetic (`Alloc/Props.lean`); `Sound` is the statement, `Fits` the condition under which it holds; concrete machines, entry types and capacities show that it fails otherwise |
| C66 | proved | `Verif/Haze/Model.lean`: the history of the pointer to the bucket array, the links, locks, dead buckets and entries of all arrays, and what each thread, value and lock knows (values of the pointer, accesses); calls with any effect on their key, relocation bucket by bucket, removal of the link, `try_resize` with replacement and drop of the table, each atomic access a step with the ordering of the code; threads also communicate outside. Buckets are maps; helping may happen at any time; the targets of a relocation are locked, filled and unlocked in one step, and all buckets locked in one step when the table is dropped; only the calls that succeed of those named `try` | an invariant over all reachable states (`Haze/Inv.lean`, `Steps*.lean`): all buckets of arrays older than the linked one are dead, and who has the resize lock knows of all arrays made under it, so a stale array is never replaced. `Haze/Lin.lean`: the calls, ordered by the array they used, are legal on an ordinary map. `Haze/Views.lean`, `Order.lean`: what is known is closed under happens-before, so this order agrees with it. `Haze/Race.lean`: accesses are known to the lock or to those who have it. `Haze/Real.lean`: the order has only calls that were made. `Haze/Props.lean` has the theorems and runs with a resize, a stale load and a dropped table |
| C67 | partial (false of the code) | `Verif/Mist/Model.lean`, on top of `Verif/Haze`: `peek_entry` access by access: the pointer, the link, the old bucket, the current bucket, the pointer again; each may be stale. What a bucket has of a key is a history with an entry for each call and each relocation into it or out of it, and what was released with it; a search reads one position. Assumed: a search is such a read, and who saw an entry moved out does not find the new bucket as it was in the beginning (C60 has the bucket in detail); who finds an entry does not thereby know the call that stored it, which may not be over (C46); no `OccupiedEntry::update` (C20); who finds a poisoned lock, and who removes a link, knows what was released with the old buckets (the code has `Release` only where those who relocate count: defect 27); a lookup learns nothing from null | an invariant that says what every view contains (`Mist/Know.lean`, `Keep.lean`): who knows a call that used an array, or a relocation into it, knows all earlier calls on the keys of the bucket that was relocated; `Mist/Hist.lean`: the histories agree with the order of calls of C66; `Mist/Look.lean`: what a lookup has found so far. From this each way to end gives a first part of the calls (`Mist/Props.lean`); `Mist/Runs.lean` has runs; `Mist/Loose.lean` removes the link as the code does, and a run in which the key is missed |
| C68 | partial (false of the code) | `Verif/Uproot/Model.lean`: the root pointer, which is null or a tree, with a number for each of its values; what each tree holds, also those that are not the root any more; calls load the root and later act on the tree that they have loaded, or begin again; trees retire when they are empty, and take no insertions then; `clear` takes the root out. Assumed: calls act on a tree in one step (C53, C51), once (C52). Another root node for the same tree is not another value here. `Verif/Coppice/Model.lean`: what was reached from the root between two calls of `clear` is an instance of `Verif/Grove`, with all its steps; calls enter the present instance, stay in it after `clear`, or begin again in the next. More is allowed than the code does (steps at the root of an instance that was taken out) | the calls are put in order root after root, the `clear` that took a root out after all calls on it, also those that act later (`St.flat`). Invariants (`Uproot/Inv.lean`, `Grow.lean`): the calls on each root explain its contents; a root that was not taken out by `clear` was empty and stays so; who has loaded a root began before whatever comes after it in this order has returned. In `Coppice`: an atomic map explains each instance (`Grove.legal_stage`, from C51), for exactly the calls that have returned there or changed something; its actions, instance after instance, are the order (`Coppice/Order.lean`, `Props.lean`); invariants say in which instances calls may have acted (`Coppice/Inv.lean`). `Coppice/Twice.lean`: a run in which a removal takes two entries, with a proof by counting that its calls have no order |
| C69 | proved | `Verif/Perch/Model.lean`: nodes as pieces of memory with a lock and its queue; guards; references found under a guard; the rule of `sdd`. Threads and tasks load, lock, wait for and unlink nodes in any order; what the nodes contain is left out. Assumed of the code: locks are released before the guard is dropped; at most one entry per call. Assumed: `saa` and `sdd` do what they say | induction (`Perch/Props.lean`): who knows a node has a guard that keeps it or the node is linked; who holds a lock knows the node; who is in a queue waits for a lock that is held. So the guard of the one who holds the lock protects the one who waits without a guard |

Theorem names and scope notes are in `MANIFEST.json`.

## Simplifications worth knowing

* Table: the contents of a bucket are a partial function (that the bucket structure implements one under
  its lock is C12). Resize decisions are nondeterministic. Helpers and resizers are threads of their own.
  Releasing several locks is one step. `extract_from` raises the length of the target before it lowers
  that of the old bucket while the move of an entry is one step in the model; only `len()` can see the
  difference. `len` is a sum over one state.
* Bucket: the bitmap, partial hash and cell writes of one call are not interleaved with readers (the
  lock-free readers of `HashIndex` are not part of this model).
* Leaf: keys that compare equal are identified; the condition of `remove_if` is a pure function of the
  value; `fetch_update` is one step; 64-bit `Dimension` only (14 slots of 4 bits).
* Tree: one thread, so that locks and retries are not visible; garbage collection is not modelled (a leaf
  stays readable for ever); addresses are numbers handed out in order; loops have fuel, and the theorems
  say how much suffices. A `push_back` behind a deleted leaf does nothing, as in `sdd`; it only occurs after
  panics (C50).
* Lock-free reads: epochs are replaced by their contract (a slot is recycled only when all guards that were
  alive when it was marked are gone); the owner of a bucket lock is one sequential process.
* Leaf, concurrent: `remove_range` is not among the concurrent calls.

* Garbage list: the contents of arrays are not part of the model; what a `swap` of a link returns (possible
  only with a second retirement) goes to `sdd` and is not followed. In the other models the link of a
  retired array stays empty; in the code it leads to an array without visible entries.
* Scope guards: programs are the paths of the language; the closure is one event.

## Where the code violates a property

Each is proved as a negation with a concrete witness; what remains true is a `…_partial` theorem.

1. **C08** `capacity_range()` returns the raw minimum-capacity word, which carries the `RESIZING` bit
   while a resize is in progress (`c08_capacity_range_invalid`).
2. **C14** `is_empty()`/`len()` can miss an entry that is present throughout, when a resize overtakes the
   scan (`c14_false_empty`).
3. **C16** Dropping a future inside `relocate_bucket_async` while it waits for the second target bucket
   leaves the first target bucket locked for ever (`c16_leak`); every later call on a key of that bucket
   blocks (`c16_leak_blocks`). The writers are forgotten before the `ExitGuard` exists.
4. **C43** A cursor over a `HashIndex` skips entries if the visitor calls `update`: the new copy may be
   placed behind entries not yet visited and the cursor goes on from there (`c43_index_update_skips`).
5. **C44** `insert` into a `TreeIndex` leaf may report a duplicate although the key is absent all the
   time: `post_insert` finds the leaf frozen and calls `rollback`, which decides by the flags *after*
   giving the slot back; if the split that froze the leaf has been given up in between (`thaw`), neither
   flag is set and `rollback` answers `Duplicate` (`c44_spurious_duplicate`, `c44_not_linearizable`).
6. **C35** `Iter` and `Range` of `TreeIndex` implement `FusedIterator` but start over after `None`
   (`c35_iter_restarts`, for every non-empty tree); `Range` has lost its lower bound by then and yields keys
   below it (`c35_range_restarts`).
7. **C36** `Range` yields a key above its upper bound if the largest key of a leaf is removed between the
   comparison and the next read (`c36_upper_bound_race`); it yields a key below the lower bound after
   `remove_range` and insertions between two calls of `next` (`c36_lower_bound_remove_range`).
8. **C45** `Iter` can yield a smaller key after a larger one: `InternalNode::remove_range` drops a wholly
   contained subtree without marking its leaves, an iterator that stands in one of them goes on to the
   leaf that followed, which by then may cover smaller keys (`c45_not_ascending`). Insertions alone suffice:
   if a split is rolled back after the iterator has loaded the pointer to the lower half and before it asks
   whether the leaf it comes from is clear, it yields the entries of the leaf once more (`c45_rollback`).
9. **C20** `HashIndex::peek` can return nothing for a key that is stored throughout, while another thread
   replaces its value with `OccupiedEntry::update`: `mark_removed` overwrites the partial hash of the old copy
   with the epoch, and a reader that loaded the bitmaps before the new copy was there no longer recognises
   the old one (`c20_missed_update`).
10. **C46** Two reads of a `HashIndex` can contradict each other: an entry is visible before the length of
   the bucket is stored, and `search_entry` looks at the length first, so one `peek` finds a key and a later
   one does not, without any removal (`c46_inversion`).
11. **C11** A cursor (`begin`, `next`, `remove_and`) can present entries twice: when a removal empties a
   bucket and the container shrinks to less than half, the traversal resumes at the start of the coarser
   bucket that covers what it has already presented (`c11_repeats`: 16 entries, 31 presentations, one thread).
12. **C22** `hash_index::Iter` implements `FusedIterator` but yields entries again after `None`
   (`c22_resumes` for every index with an entry outside the first bucket, `c22_not_fused` concretely).
13. **C38** `HashCache` announces its maximum capacity instead of its length when serialised
   (`c38_cache_serialize_violated`), so formats that write the length first produce malformed output.
   Reading a cache back from a format without a length limits the new cache to 64 slots and evicts
   (`c38_cache_deserialize_violated`). Building from an iterator evicts too, and the first pair with a key
   need not be the one that stays (`c38_cache_from_iter_violated`).
14. **C25** After a `HashCache` has grown, an entry that was just looked up can be evicted before entries
   that were not used for longer: relocated entries are not on the LRU list of their new bucket, and
   `evict_lru_head` takes the tail of that list unless it is empty (`c25_violated`).
15. **C49** An insertion can shrink a table and a removal can grow it: `try_enlarge` and `try_shrink` look
   at `sample_size` buckets from the locked one on, while `sample`, on which `try_resize` bases the new
   capacity, looks at the aligned window and the first or last one (`c49_insert_violated`,
   `c49_remove_violated`).

16. **C23** `HashIndex` can free a bucket array that is in use. `dealloc_garbage` loads the head of the
   garbage list, checks the epoch, and takes the list with a `compare_exchange` on the head. Another thread
   may take and free the list in between, and since that happens without waiting for guards, a new array can
   have the same address and be retired before the `compare_exchange`, which then succeeds
   (`c23_violated_address`). The same happens without reuse of an address (`c23_violated_again`): a thread
   that still works on a retired array sees the next array of the garbage list as the array it is to be
   filled from, finishes the "rehash" of that array if it was retired empty, and retires it a second time.
17. **C50** A `TreeIndex` is not impervious to panics in user code. If `K::clone` panics in `split_leaf` after
   the new leaves have been linked (leaf_node.rs 850), the exit guard thaws the old leaf but leaves the new
   ones in the list: iterators yield keys that are removed (`c50_insert_violated`) or yield keys twice
   (`c50_insert_retry_violated`). If a comparison panics in `LeafNode::coalesce` after `delete_self`
   (leaf_node.rs 928-931), the leaf stays a child of its node; the next split of it cannot be linked, and
   iterators miss all entries behind it (`c50_remove_violated`).
18. **C52** One call of `TreeIndex::remove` can remove two entries. If the removal has emptied the tree and
   `cleanup_root` finds the root locked by another thread, `remove_if_sync` sets `removed` and begins again
   (tree_index.rs 463-471), and removes the key once more if it has been inserted meanwhile
   (`c52_remove_takes_two`): an insertion that succeeded is undone by a removal that had already done its work.
   Such an execution is not linearizable (**C53**, `c53_violated`; **C68**, `c68_violated`).
19. **C54** `Iter` can yield an entry that was removed before the iterator began. `split_node` adds the lower
   half to the parent before it puts the upper half in the place of the old node (internal_node.rs 826-863).
   If everything in the lower half is removed in between, `min` of the lower half is `None`, and `min` of the
   parent goes on with the old node, the children of which may have been split since and are no longer kept up
   (`c54_stale`).
20. **C57** `reserve_slots` walks the chain of linked buckets and extends it at its end, so it reserves nothing if
   the bucket has no linked bucket (bucket.rs 308-309, `c57_violated`); in a `HashIndex` the insertion that
   follows may unlink the empty buckets it has reserved (`c57_violated_index`). The relocation "is infallible"
   (hash_table.rs 1068) only otherwise.
21. **C56** In consequence a failing allocation can leave a relocation half done. The old bucket is released and
   stays in use, and a thread that had loaded the old array before the resize finds it without the keys that were
   moved: a key is inserted twice (`c56_violated`). This needs an allocator whose failures unwind.
22. **C59** `reader_async`, `writer_async` and `optional_writer_async` evaluate `current_array.bucket_index(hash)`
   (hash_table.rs 280, 348, 431) after `incremental_rehash_async`, which may have been suspended and lost the guard,
   and before `check_ref` in `dedup_bucket_async`: the array may have been freed (`c59_point_violated`). The window is
   between `end_incremental_rehash` and that argument.
23. **C59** `for_each_reader_async` evaluates `current_array.len()` after its inner loop (562). If it left the loop
   because the bucket it waited for was killed, it has no guard, and the array may have been freed long ago
   (`c59_reader_violated`). `for_each_writer_async` remembers the length instead.
24. **C59** `check_ref` compares addresses. After a suspension in `incremental_rehash_async` the array may have been
   freed and a smaller one may have its address, and a traversal uses its index with that one: an access beyond the
   end (`c59_reuse_violated`). The comment above `dedup_bucket_async` mentions the problem for suspensions inside it,
   where it is avoided (`c59_point_partial`).
25. **C60** `search_entry` skips a bucket if `len` is 0, and `len` is stored and loaded with `Relaxed` (bucket.rs 139,
   171, 367, 623), unlike the bitmaps. A lookup beside a relocation may load the new length of the old bucket, which
   is 0 after the last entry has left, and then the old length of the new bucket, which is 0 too: `peek` returns
   `None` for a key that is there all the time (`c60_len_violated`). Processors that reorder loads can show this. With
   `Release` and `Acquire` it cannot happen (`c60_moved_partial` with `md = true`).
26. **C60** `search_data_block` reads `partial_hash_array` without synchronisation while the owner of the lock writes it
   (bucket.rs 240, 703-707): a data race by the rules of the language (`c60_race_violated`). The result does not
   depend on what is read, since keys are compared.
27. **C60, C67** `end_incremental_rehash` counts down with `Release` only (hash_table.rs 1135), so by the rules of the
   language the last helper does not know what the others have moved when it unlinks the old array (1247), and neither
   does a lookup that finds it unlinked (`c60_unlink_violated`). In a whole table a thread may then miss the key it has
   inserted itself (`c67_unlink_violated`). `AcqRel` would do; current processors order it anyway.
28. **C61** `InternalNode::remove_range` of a node on the lower border of the range removes the key of its lower child,
   and only then makes this child the unbounded one (internal_node.rs 518-520). In between, all keys of the child,
   also those below the range, lead to the old unbounded child, and the version does not change afterwards: a `peek`
   of such a key finds nothing (`c61_peek_violated`), an insertion goes to the subtree that is dropped and is lost
   (`c61_insert_violated`), or succeeds although the key is there. The tree must have three levels. `coalesce` does
   the same in the right order, replacing the unbounded child first (972-985).
29. **C62** "`TreeIndex` methods are linearizable" (tree_index.rs 33) does not hold by the rules of the language. All
   accesses are `Acquire`, `Release` or `Relaxed`; if two threads insert keys that belong to different leaves, and then
   each looks for the key of the other one, both can find nothing (`c62_order_violated`). On x86 every
   read-modify-write is a full barrier and this is not seen. What `sdd` does when a `Guard` is created is not
   modelled; if it contains a sequentially consistent fence, this needs threads that keep a guard across the calls: with
   a fence before each call the calls are linearizable (`c62_fenced_partial`).
   The documentation of `HashIndex` has a reservation of this kind (hash_index.rs 34), that of `TreeIndex` has none.
30. **C65** `BucketArray::new` multiplies sizes without checks (bucket_array.rs 63, 186). In release builds the products are cut
   off: `HashCache::<u64, u64>::with_capacity(usize::MAX, n)` returns a cache of 2^57 buckets for which 128 bytes were
   allocated, and none for the entries; the first `put` writes outside (`c65_cache_corrupt`). With 32 bits
   `HashMap::<u32, [u32; 256]>::with_capacity(1 << 22)` allocates 16 MB for 4 GB of entries (`c65_short`).
31. **C65** For entries without a size, `HashMap<(), ()>` or `HashSet<()>`, the allocator is asked for 0 bytes (74), which its contract
   forbids (`c65_zero_size`).
32. **C65** For capacities above 2^61, `from_size_align_unchecked` (188) is given more than `isize::MAX`, which its contract
   forbids (`c65_map_huge`). The upper bound of a size hint is enough for this: `(0..u64::MAX).take_while(..)` cannot be collected
   into a `HashMap`, however few items it has (`c65_collect`).
33. **C65** If the layout of the data blocks is not valid, the `unwrap` (66) panics before there is a guard that gives the buckets
   back: they are lost (`c65_leak`).
34. **C45** `clear` stores null *without a tag* as the link of every leaf of the tree that it has taken out (leaf_node.rs 85-97; a comment in
   `rollback`, leaf_node.rs 718-720, mentions it). A leaf that is being split is marked so that iterators compare keys when they go on to its copies; if `clear`
   takes the mark away between the load of the link and the load of the mark (leaf.rs 917-922), the entries of the leaf are yielded once more
   (`c45_clear`). To keep the tag, or to leave the links as they are, would help.


## Not modelled

* Weak memory orderings except for lookups in `HashIndex` (C60), calls on single keys in a leaf node of `TreeIndex`
  (C62), the slots of a leaf (C64) and calls on single keys of `HashMap`, `HashSet` (C66) and lookups of `HashIndex` (C67): all other concurrent models interleave accesses to one
  memory.
* Allocation failure and panics in user code except for the hash containers beside other threads (C56, C57),
  `insert` and `remove_if` of `TreeIndex` (C50) and the scope guards of C39 (the crate requires `Hash` and `Drop`
  not to panic). A failing allocation is taken to unwind; with the default handler it aborts.
* `saa`, `sdd` internals, `serde` data formats, prefetch hints, `loom` configuration, 32-bit targets (except for C65).

## Axioms each claimed theorem depends on

**none**: `Scc.Reserve.c08_capacity_range_invalid`, `Scc.Table.c17_busy`, `Scc.Slot.run_reuse`, `Scc.Slot.run_view`, `Scc.Slot.run_drop`, `Scc.Haze.c66_stale`, `Scc.Uproot.run_clear`

**propext**: `Scc.Gc.c23_violated_address`, `Scc.Gc.c23_violated_again`, `Scc.Gc.c23_generation_needed`, `Scc.Scope.c39_once`, `Scc.Scope.c39_loud`, `Scc.Scope.c39_rehash_needs`, `Scc.Grove.c52_once_partial`, `Scc.Weak.c60_race_violated`, `Scc.Mow.c61_insert_illegal`, `Scc.Alloc.c65_leak`, `Scc.Haze.c66_grow`, `Scc.Mist.c67_begin`, `Scc.Perch.run_wait`

**propext, Quot.sound**: `Scc.Seq.c11_repeats`, `Scc.Table.c14_false_empty`, `Scc.Table.c16_leak`, `Scc.Seq.c22_not_fused`, `Scc.Gc.c23_sound_partial`, `Scc.Gc.c23_retire_partial`, `Scc.Gc.c23_reclaims_partial`, `Scc.Seq.c25_violated`, `Scc.Seq.c25_sample`, `Scc.Seq.c26_shrink_counterexample`, `Scc.Tree.c35_range_restarts`, `Scc.Tree.c36_upper_bound_race`, `Scc.Tree.c36_lower_bound_remove_range`, `Scc.Seq.c38_cache_from_iter_violated`, `Scc.Seq.c38_cache_serialize_violated`, `Scc.Seq.c38_cache_deserialize_violated`, `Scc.Seq.c38_cache_hint_sample`, `Scc.Index.c40_sample_zero`, `Scc.Bucket.c43_index_update_skips`, `Scc.LeafConc.c44_spurious_duplicate`, `Scc.Tree.c45_not_ascending`, `Scc.Peek.c46_inversion`, `Scc.Seq.c49_insert_violated`, `Scc.Seq.c49_remove_violated`, `Scc.Seq.turnTable_runs`, `Scc.Grove.c52_remove_takes_two`, `Scc.Bucket.c57_violated`, `Scc.Bucket.c57_violated_index`, `Scc.Async.c59_violated`, `Scc.Async.c59_point_violated`, `Scc.Async.c59_reader_violated`, `Scc.Async.c59_reuse_violated`, `Scc.Weak.c60_len_violated`, `Scc.Weak.c60_unlink_violated`, `Scc.Mow.c61_peek_violated`, `Scc.Mow.c61_insert_violated`, `Scc.Mow.c61_outside_partial`, `Scc.Mow.c61_elsewhere_partial`, `Scc.Mow.c61_inside_partial`, `Scc.Knot.c63_two`, `Scc.Slot.c64_exclusive`, `Scc.Slot.c64_write_known`, `Scc.Slot.c64_read_known`, `Scc.Slot.c64_initialised`, `Scc.Slot.c64_stable`, `Scc.Slot.c64_own`, `Scc.Alloc.c65_partial`, `Scc.Alloc.c65_apart`, `Scc.Alloc.c65_usual`, `Scc.Alloc.c65_zero_size`, `Scc.Alloc.c65_set_of_unit`, `Scc.Alloc.c65_short`, `Scc.Alloc.c65_short64`, `Scc.Perch.c69_queue`, `Scc.Perch.c69_touch`

**propext, Classical.choice, Quot.sound**: `Scc.Table.c01_sequential`, `Scc.Table.c02_linearizable`, `Scc.Table.c03_one_place`, `Scc.Table.c03_unchanged`, `Scc.Table.c03_lookup`, `Scc.Bucket.c03_extract_moves_one`, `Scc.Rehash.c04_detached_at_most_once`, `Scc.Rehash.c04_detached_only_when_done`, `Scc.Rehash.c04_never_stuck`, `Scc.Rehash.c04_claims_in_range`, `Scc.Index.c05_hash_in_range`, `Scc.Index.c05_range_bounds`, `Scc.Index.c05_range_dual`, `Scc.Index.c05_range_disjoint`, `Scc.Index.c05_range_covers`, `Scc.Index.c05_index_bound`, `Scc.Index.c06_new_capacity`, `Scc.Index.c06_new_capacity_tight`, `Scc.Index.c06_resize_valid`, `Scc.Index.c06_cache_limits`, `Scc.Seq.c06_history`, `Scc.Seq.c06_cache_history`, `Scc.Reserve.c07_minimum_is_sum`, `Scc.Reserve.c07_reserve_decision`, `Scc.Reserve.c07_release_no_underflow`, `Scc.Reserve.c07_resize_lock_exclusive`, `Scc.Reserve.c08_capacity_range_partial`, `Scc.Table.c09_visits`, `Scc.Table.c10_retain`, `Scc.Table.c10_clear`, `Scc.Bucket.c10_bucket_pass`, `Scc.Seq.c10_table_retain`, `Scc.Seq.c10_table_clear`, `Scc.Seq.c11_traversal_partial`, `Scc.Bucket.c12_bucket_refines_map`, `Scc.Bucket.c12_lookup`, `Scc.Table.c13_is_empty`, `Scc.Table.c13_unchanged`, `Scc.Table.c13_len`, `Scc.Table.c14_not_empty_partial`, `Scc.Crowd.c15_dropped_once`, `Scc.Crowd.c15_no_double_drop`, `Scc.Crowd.c15_never_more`, `Scc.Seq.c15_dropped_once_partial`, `Scc.Seq.c15_cache_dropped_once_partial`, `Scc.Table.c16_leak_blocks`, `Scc.Table.c16_cancel_partial`, `Scc.Table.c17_no_lock_kept`, `Scc.Table.c17_give_up`, `Scc.Table.c18_no_cycle`, `Scc.Table.c18_chain_short`, `Scc.Table.c18_holder_busy`, `Scc.Table.c18_can_step`, `Scc.Table.c18_complete`, `Scc.Peek.bucket_finds`, `Scc.Peek.bucket_misses`, `Scc.Peek.step_effect`, `Scc.Peek.out_stays`, `Scc.Peek.c19_iter`, `Scc.Table.c19_table_some`, `Scc.Table.c19_table_none`, `Scc.Table.c19_table_none_no_update`, `Scc.Peek.c20_missed_update`, `Scc.Peek.c20_only_update_partial`, `Scc.Peek.c20_old_or_new_partial`, `Scc.Peek.c21_ref_valid`, `Scc.Peek.c21_candidate_valid`, `Scc.Peek.c21_iter_valid`, `Scc.Peek.c21_no_recycle`, `Scc.Seq.c22_resumes`, `Scc.Seq.c22_complete_partial`, `Scc.Gc.c23_drop_partial`, `Scc.Lru.c24_lru_refines_recency_list`, `Scc.Lru.c24_evict_is_least_recent`, `Scc.Lru.c24_victim_in_block`, `Scc.Seq.c25_evicts_partial`, `Scc.Seq.c25_lru_partial`, `Scc.Seq.c25_small`, `Scc.Seq.c26_capacity`, `Scc.Seq.c26_put_no_overflow`, `Scc.Seq.c26_small`, `Scc.Leaf.c27_slot_update`, `Scc.Leaf.c27_clear_mark`, `Scc.Leaf.c27_flags`, `Scc.Leaf.c27_states_independent`, `Scc.Leaf.c28_leaf_refines_sorted_map`, `Scc.Leaf.c28_leaf_sorted_bounded`, `Scc.Leaf.c28_insert`, `Scc.LeafConc.c29_linearizable`, `Scc.LeafConc.c29_unique`, `Scc.LeafConc.c29_no_race`, `Scc.LeafConc.c29_exclusive`, `Scc.LeafConc.c29_never_blocked`, `Scc.LeafConc.c30_retired_dead`, `Scc.LeafConc.c30_frozen`, `Scc.Tree.c31_map`, `Scc.Tree.c31_contents`, `Scc.Tree.c32_iter`, `Scc.Tree.c32_len`, `Scc.Tree.c33_range`, `Scc.Tree.c34_remove_range`, `Scc.Tree.c35_iter_restarts`, `Scc.Tree.c35_iter_partial`, `Scc.Tree.c35_range_partial`, `Scc.Tree.c36_undisturbed_partial`, `Scc.Leaf.c37_boundary`, `Scc.Leaf.c37_distribute`, `Scc.Leaf.c37_split_full`, `Scc.Tree.c37_node`, `Scc.Tree.c37_retry`, `Scc.Seq.c38_map_from_iter`, `Scc.Seq.c38_insert_from_iter`, `Scc.Seq.c38_clone`, `Scc.Seq.c38_index_clone`, `Scc.Seq.c38_eq`, `Scc.Seq.c38_index_eq`, `Scc.Seq.c38_serialize`, `Scc.Seq.c38_index_serialize`, `Scc.Tree.c38_tree_clone`, `Scc.Tree.c38_tree_eq`, `Scc.Seq.c38_cache_eq`, `Scc.Seq.c38_cache_from_iter_partial`, `Scc.Seq.c38_cache_serialize_partial`, `Scc.Seq.c38_cache_deserialize_limit`, `Scc.Scope.c39_count`, `Scc.Scope.c39_not_after_forget`, `Scc.Scope.c39_rehash`, `Scc.Index.c40_sample_indices`, `Scc.Index.c40_sample_exact_uniform`, `Scc.Seq.c41_entry`, `Scc.Seq.c41_remove_entry`, `Scc.Seq.c41_get`, `Scc.Seq.c41_replace`, `Scc.Seq.c41_set_replace`, `Scc.Index.c42_grow_reason`, `Scc.Index.c42_shrink_reason`, `Scc.Index.c42_resize_settles`, `Scc.Bucket.c43_cursor_remove_partial`, `Scc.Seq.c43_cursor_partial`, `Scc.LeafConc.c44_not_linearizable`, `Scc.LeafConc.c44_spec_honest`, `Scc.LeafConc.c44_honest_duplicate_partial`, `Scc.Vine.c45_rollback`, `Scc.Vine.c45_clear`, `Scc.Tree.c45_undisturbed_partial`, `Scc.Vine.c45_ascends_partial`, `Scc.Peek.c46_again_partial`, `Scc.Seq.c47_finite_map`, `Scc.Seq.c48_cache_map`, `Scc.Seq.c49_insert_partial`, `Scc.Seq.c49_cache_partial`, `Scc.Seq.c49_cache_remove_partial`, `Scc.Seq.c49_remove_partial`, `Scc.Tree.c50_calls_partial`, `Scc.Tree.c50_iter_partial`, `Scc.Tree.c50_insert_violated`, `Scc.Tree.c50_insert_retry_violated`, `Scc.Tree.c50_remove_violated`, `Scc.Grove.c51_legal`, `Scc.Grove.c53_violated`, `Scc.Grove.c53_linearizable_partial`, `Scc.Grove.c53_calm_partial`, `Scc.Vine.c54_stale`, `Scc.Vine.c54_faithful_partial`, `Scc.Table.c55_sound`, `Scc.Table.c55_complete`, `Scc.Table.c55_complete_entry`, `Scc.Table.c55_once`, `Scc.Table.c55_repeats`, `Scc.Peek.bucket_yields`, `Scc.Peek.bucket_skips`, `Scc.Peek.bucket_once`, `Scc.Peek.bucket_at_most_once`, `Scc.Table.c56_violated`, `Scc.Table.c56_linearizable_partial`, `Scc.Table.c56_released_partial`, `Scc.Table.c56_complete_partial`, `Scc.Bucket.c57_reserve_partial`, `Scc.Bucket.c57_small_partial`, `Scc.Table.Cache.c58_linearizable`, `Scc.Table.Cache.c58_source`, `Scc.Table.Cache.c58_conserved`, `Scc.Async.c59_live_partial`, `Scc.Async.c59_bounds_partial`, `Scc.Async.c59_writer_partial`, `Scc.Async.c59_point_partial`, `Scc.Async.c59_ready_partial`, `Scc.Async.c59_relocation`, `Scc.Weak.c60_entry_partial`, `Scc.Weak.c60_found_partial`, `Scc.Weak.c60_moved_partial`, `Scc.Weak.c60_moved_late_partial`, `Scc.Twig.c62_order_violated`, `Scc.Twig.c62_register_partial`, `Scc.Twig.c62_found_partial`, `Scc.Twig.c62_turns_partial`, `Scc.Twig.c62_own_partial`, `Scc.Twig.c62_sync_partial`, `Scc.Twig.c62_forward_partial`, `Scc.Twig.c62_message_partial`, `Scc.Twig.c62_fenced_partial`, `Scc.Knot.c63_self`, `Scc.Knot.c63_chain`, `Scc.Knot.c63_no_cycle`, `Scc.Knot.c63_can_step`, `Scc.Knot.c63_end`, `Scc.Knot.c63_over`, `Scc.Knot.c63_complete`, `Scc.Knot.c63_holder`, `Scc.Knot.c63_reachable`, `Scc.Knot.c63_tree`, `Scc.Slot.c64_once`, `Scc.Alloc.c65_cache_huge`, `Scc.Alloc.c65_cache_corrupt`, `Scc.Alloc.c65_map_huge`, `Scc.Alloc.c65_collect`, `Scc.Alloc.c65_violated`, `Scc.Haze.c66_linearizable`, `Scc.Haze.c66_exclusive`, `Scc.Haze.c66_race`, `Scc.Haze.c66_move`, `Scc.Haze.c66_target`, `Scc.Haze.c66_array`, `Scc.Haze.c66_link`, `Scc.Haze.c66_replace`, `Scc.Haze.c66_own`, `Scc.Haze.run_pick`, `Scc.Haze.run_read`, `Scc.Haze.run_drop`, `Scc.Mist.c67_unlink_violated`, `Scc.Mist.c67_partial`, `Scc.Mist.c67_exact_partial`, `Scc.Mist.run_lookups`, `Scc.Coppice.c68_violated`, `Scc.Coppice.c68_trees_partial`, `Scc.Uproot.c68_partial`, `Scc.Uproot.c68_clear`
