{"id": "C01", "title": "HashMap behaves as a finite map for every operation sequence", "statement": "Started empty, every sequence of insert, upsert, update, remove, remove_if, read, contains, retain and clear on a HashMap returns exactly the results a mathematical finite map would return, no matter how the table grows, shrinks or moves entries in between.", "quantifier": "all finite sequences of operations, all keys and values, all hash functions (including constant ones), all points at which the table decides to resize", "why_tests_cant": "Tests run a handful of sequences with one hasher; the claim ranges over every hash function, every collision pattern and every interleaving of resizing with operations.", "anchors": ["src/hash_map.rs: insert_sync, upsert_sync, update_sync, remove_if_sync, read_sync, retain_sync", "src/hash_table.rs: writer_sync, optional_writer_sync, reader_sync, incremental_rehash_sync, dedup_bucket_sync, relocate_bucket, try_resize"]}
{"id": "C02", "title": "HashMap point operations are linearizable under every schedule", "statement": "When any number of threads run insert, upsert, update, remove_if and read concurrently with each other and with resizing, every completed call takes effect at one instant between its start and its end, and its result is the one a finite map gives at that instant.", "quantifier": "all numbers of threads, all programs they run, all interleavings of their lock-protected steps, all resize decisions at any moment", "why_tests_cant": "A schedule space of this size cannot be enumerated; loom tests in the repository bound it to two threads and a few operations.", "anchors": ["src/hash_table.rs: writer_sync, reader_sync, optional_writer_sync, dedup_bucket_sync, relocate_bucket_sync, try_resize", "src/hash_table/bucket.rs: Writer::lock_sync, Writer::kill, Reader::lock_sync", "src/hash_map.rs"]}
{"id": "C03", "title": "Resizing never loses, duplicates or alters an entry", "statement": "While a resize is in progress, at every moment each stored key-value pair is present in exactly one bucket of exactly one live bucket array, with its value unchanged, and it is found by the lookup procedure.", "quantifier": "all interleavings of relocation steps by any number of helpers with user operations, all array length pairs (grow and shrink by any power of two)", "why_tests_cant": "Loss or duplication needs a helper to stop between moving two entries; a test cannot place a stop at every point of every schedule.", "anchors": ["src/hash_table.rs: relocate_bucket, dedup_bucket_sync, incremental_rehash_sync", "src/hash_table/bucket.rs: extract_from"]}
{"id": "C04", "title": "An old bucket array is retired exactly once and only when it is empty", "statement": "Helpers claim ranges of the old array concurrently and may give up. The old array is detached by exactly one helper at most, and only after every one of its buckets has been relocated; if all helpers stop with success the array does get detached.", "quantifier": "all numbers of helpers, all interleavings of claiming, finishing and giving up, all array lengths that are powers of two", "why_tests_cant": "The counter packs an index and a reference count in one word; failures rewind it. Only a few of the unbounded interleavings of claim, finish and rewind can be tested.", "anchors": ["src/hash_table.rs: start_incremental_rehash, end_incremental_rehash, incremental_rehash_sync, incremental_rehash_async"]}
{"id": "C05", "title": "Bucket ranges of two array sizes agree with the hash", "statement": "For any hash and any two array lengths, the bucket a key maps to in one array lies in the range computed from its bucket in the other array, ranges of different buckets are disjoint, and together they cover the whole other array.", "quantifier": "all 64-bit hashes, all pairs of power-of-two lengths, all bucket indices", "why_tests_cant": "2^64 hashes times all length pairs cannot be enumerated, and an off-by-one would only lose keys for rare hashes.", "anchors": ["src/hash_table.rs: from_index_to_range", "src/hash_table/bucket_array.rs: BucketArray::new, bucket_index"]}
{"id": "C06", "title": "capacity() is a power of two within the advertised limits", "statement": "The capacity of a new container is a power of two, at least 64, at least the requested capacity when that is at most 2^62; every resize decision yields again a power of two that is at least 64, at least the minimum capacity in force and at most the maximum capacity.", "quantifier": "all requested capacities in the full usize range, all reachable table states, all occupancy estimates", "why_tests_cant": "The computation involves saturating arithmetic at the ends of the 64-bit range that tests cannot allocate.", "anchors": ["src/hash_table/bucket_array.rs: BucketArray::new", "src/hash_table.rs: try_resize", "src/hash_map.rs: with_capacity_and_hasher", "src/hash_cache.rs: with_capacity_and_hasher"]}
{"id": "C07", "title": "Reserve bookkeeping is exact", "statement": "At every moment the minimum capacity equals the initial minimum plus the sum of additional_capacity() of all live Reserve values; it never exceeds the maximum capacity and releasing a Reserve never underflows; reserve(n) fails exactly when the limit would be exceeded or n = 0.", "quantifier": "all interleavings of reserve, drop of Reserve and the resize lock bit stored in the same word, by any number of threads", "why_tests_cant": "The sum and the resize flag share one atomic word updated by CAS, fetch_add and fetch_sub; races between them are schedule dependent.", "anchors": ["src/hash_table.rs: reserve_capacity, try_resize, minimum_capacity", "src/hash_map.rs: reserve, Reserve::drop"]}
{"id": "C08", "title": "capacity_range() is always a valid range", "statement": "capacity_range() returns a range whose lower end is the current minimum capacity and never exceeds the upper end, also while another thread resizes the container.", "quantifier": "all moments in all executions", "why_tests_cant": "The window in which the value is wrong is a few instructions long.", "anchors": ["src/hash_map.rs: capacity_range", "src/hash_index.rs: capacity_range", "src/hash_cache.rs: capacity_range", "src/hash_table.rs: try_resize"]}
{"id": "C09", "title": "Iteration visits every entry that stays in the map", "statement": "An entry that is present when iter, iter_mut or retain starts and is not removed during it is visited at least once, even if the table is resized any number of times during the traversal.", "quantifier": "all sequences of grow and shrink steps placed anywhere in the traversal, all array lengths, all hashes", "why_tests_cant": "The traversal re-computes its position after each resize; skipping needs a particular sequence of sizes at particular positions.", "anchors": ["src/hash_table.rs: for_each_reader_sync, for_each_writer_sync, from_index_to_range"]}
{"id": "C10", "title": "retain and clear keep exactly the right entries", "statement": "On a table no other thread touches, retain(pred) calls pred exactly once per entry, keeps exactly the entries for which it returned true (with the value the closure left), and clear leaves the table empty.", "quantifier": "all table contents, all predicates including stateful value-changing ones, all layouts with overflow chains", "why_tests_cant": "Removing an entry while iterating over a bucket frees and unlinks overflow blocks; wrong continuation shows up only for particular chain layouts.", "anchors": ["src/hash_map.rs: retain_sync, iter_mut_sync, ConsumableEntry::consume", "src/hash_table/bucket.rs: remove, EntryPtr::unlink, EntryPtr::move_to_next"]}
{"id": "C11", "title": "Cursor iteration with removal neither skips nor repeats", "statement": "Starting at begin and stepping with next or remove_and, each entry is presented exactly once and the traversal ends, for every choice of which entries are removed on the way.", "quantifier": "all table contents, all choices of next or remove at each step, all overflow chain layouts", "why_tests_cant": "The number of removal patterns is exponential in the number of entries.", "anchors": ["src/hash_map.rs: begin_sync, OccupiedEntry::next_sync, OccupiedEntry::remove_and_sync", "src/hash_table.rs: LockedBucket::next_sync"]}
{"id": "C12", "title": "A bucket is an exact finite map despite fingerprint collisions and overflow", "statement": "Within one bucket, looking up a key finds it if and only if it was inserted and not removed, whatever 8-bit fingerprints collide and however many entries overflow into linked blocks; the length equals the number of stored entries.", "quantifier": "all sequences of bucket operations, all keys, all hashes, all chain shapes", "why_tests_cant": "Needs arbitrary collisions between 256 fingerprints and unbounded overflow chains.", "anchors": ["src/hash_table/bucket.rs: insert, insert_overflow, remove, search_entry, get_entry_ptr, search_data_block"]}
{"id": "C13", "title": "len() and is_empty() are exact when nobody is writing", "statement": "On a container that no other thread is modifying, len() is the number of keys that read finds and is_empty() is true exactly when there is none, also in the middle of an incremental resize.", "quantifier": "all reachable states, including those with an old array still attached and partially moved", "why_tests_cant": "States with a half-moved old array depend on the full operation history.", "anchors": ["src/hash_table.rs: num_entries, has_entry"]}
{"id": "C14", "title": "is_empty() is never true while the map holds an entry", "statement": "If at every moment during a call of is_empty() the map contains some fixed entry, the call returns false.", "quantifier": "all interleavings with other threads' inserts and resizes", "why_tests_cant": "The window needs another thread to grow the table and relocate everything between two loads.", "anchors": ["src/hash_table.rs: has_entry, num_entries"]}
{"id": "C15", "title": "Every stored pair is dropped exactly once", "statement": "Every key-value pair handed to a container is, over the life of the container, returned to the caller or dropped exactly once; none is dropped twice and none is leaked when the container is dropped, also when the container is dropped in the middle of a resize.", "quantifier": "all operation histories, all points at which the container is dropped, all rehash progress values", "why_tests_cant": "Leaks and double drops depend on the rehash progress counter at the moment of the drop.", "anchors": ["src/hash_table/bucket_array.rs: Drop for BucketArray", "src/hash_table/bucket.rs: drop_entries, extract_from, LinkedBucket::drop", "src/hash_map.rs: Drop"]}
{"id": "C16", "title": "Dropping a pending future leaves the container usable", "statement": "If the future of an asynchronous operation is dropped at any suspension point, every bucket lock it had acquired is released and no entry is lost.", "quantifier": "all suspension points of all asynchronous operations, all contention patterns", "why_tests_cant": "Cancellation can happen at every await of every nested call under every contention pattern.", "anchors": ["src/hash_table.rs: relocate_bucket_async, dedup_bucket_async, incremental_rehash_async", "src/exit_guard.rs", "src/hash_table/bucket.rs: Writer::lock_async"]}
{"id": "C17", "title": "A failed try operation leaves nothing behind", "statement": "When try_entry, or the opportunistic helping done by len, is_empty and peek, meets a locked bucket and gives up, all locks taken by it are released and every entry is still where lookups find it.", "quantifier": "all lock states of all buckets, all numbers of target buckets, all failure positions", "why_tests_cant": "The failure position ranges over all target buckets under all contention patterns.", "anchors": ["src/hash_table.rs: try_reserve_bucket, relocate_bucket_sync, dedup_bucket_sync, incremental_rehash_sync"]}
{"id": "C18", "title": "Internal locking is deadlock free", "statement": "If no user closure or entry handle holds a lock forever, some thread that is inside an operation can always make progress: internal lock acquisition never forms a waiting cycle.", "quantifier": "all reachable states of any number of threads operating and helping to resize", "why_tests_cant": "Deadlock needs a specific cyclic schedule.", "anchors": ["src/hash_table.rs: relocate_bucket_sync, dedup_bucket_sync, writer_sync"]}
{"id": "C19", "title": "HashIndex lock-free reads are consistent with inserts, removals and resizing", "statement": "A peek that returns a value returns one that was stored for that key at some moment during the call; a peek that returns nothing implies that the key was absent at some moment during the call, when writers only insert, remove or relocate.", "quantifier": "all interleavings of the individual loads of the reader with the individual stores of writers and relocations, any number of each", "why_tests_cant": "The reader takes no lock, so any interleaving of single memory accesses can occur.", "anchors": ["src/hash_table.rs: peek_entry, relocate_bucket", "src/hash_table/bucket.rs: search_entry, search_data_block, insert_entry, mark_removed, extract_from"]}
{"id": "C20", "title": "HashIndex peek never misses a key that is being updated", "statement": "If a key is present during the whole of a peek and another thread only replaces its value with OccupiedEntry::update, peek returns the old or the new value, never nothing.", "quantifier": "all interleavings of the reader's loads with the update's stores", "why_tests_cant": "The failing schedule is a few instructions wide.", "anchors": ["src/hash_index.rs: OccupiedEntry::update, peek", "src/hash_table/bucket.rs: search_data_block, mark_removed, insert"]}
{"id": "C21", "title": "HashIndex never recycles a slot a reader may still look at", "statement": "A reference obtained through peek or iter under a guard stays valid and unchanged until the guard is dropped: the slot it points to is neither dropped nor overwritten before.", "quantifier": "all interleavings of readers, removals, slot recycling and epoch advances", "why_tests_cant": "Use-after-free depends on the relative order of epoch changes and slot reuse.", "anchors": ["src/hash_table/bucket.rs: mark_removed, clear_unreachable_entries, drop_unreachable_entries, insert"]}
{"id": "C22", "title": "HashIndex::Iter is a fused iterator", "statement": "After next() has returned None once, it returns None for ever, as promised by the FusedIterator implementation; before that, on an unmodified index, it yields every entry exactly once.", "quantifier": "all index contents and layouts, all numbers of further next() calls", "why_tests_cant": "Tests stop at the first None.", "anchors": ["src/hash_index.rs: Iter::next, FusedIterator for Iter"]}
{"id": "C23", "title": "HashIndex frees each retired bucket array exactly once and not too early", "statement": "Arrays retired by resizing are each deallocated exactly once, never while still reachable from the container and never while a guard that could have seen them is alive.", "quantifier": "all interleavings of retiring, reclaiming and epoch advances", "why_tests_cant": "The chain is manipulated by swap and CAS from several threads.", "anchors": ["src/hash_index.rs: defer_reclaim, reclaim_memory, dealloc_garbage, Drop"]}
{"id": "C24", "title": "The per-bucket LRU list orders entries by recency", "statement": "After any sequence of touching, removing and evicting slots, the order kept by the list is exactly the order of last touch of the slots still in it; evicting returns the least recently touched one, and membership is exact.", "quantifier": "all operation sequences over the 32 slots", "why_tests_cant": "The list uses (0,0) both for 'absent' and for a legal link value of slot 0, so correctness hinges on rare configurations around slot 0; 32! orders cannot be enumerated.", "anchors": ["src/hash_table/bucket.rs: DoublyLinkedList::evict, remove, promote"]}
{"id": "C25", "title": "HashCache evicts only when needed and picks the least recently used entry", "statement": "put evicts an entry exactly when the target bucket is full, returns the evicted pair, and the evicted entry is the least recently put or gotten entry of that bucket.", "quantifier": "all histories of put, get, remove on a bucket, including histories with a resize", "why_tests_cant": "Recency order depends on the whole history.", "anchors": ["src/hash_cache.rs: put_sync, get_sync, VacantEntry::put_entry", "src/hash_table/bucket.rs: evict_lru_head, update_lru_tail, remove"]}
{"id": "C26", "title": "HashCache never holds more entries than its capacity", "statement": "The number of entries in a HashCache never exceeds its capacity() as long as it has not shrunk; put never allocates overflow space.", "quantifier": "all histories of cache operations, all hash functions", "why_tests_cant": "Depends on history and hash distribution.", "anchors": ["src/hash_cache.rs: put_sync", "src/hash_table/bucket.rs: evict_lru_head, insert", "src/hash_table.rs: relocate_bucket"]}
{"id": "C27", "title": "TreeIndex leaf metadata encodes slot states without interference", "statement": "Reading the state of a slot after writing any slot's state returns the written state for that slot and the old one for all others, and the frozen and retired flags are independent of slot states, so no slot update can corrupt another slot or a flag.", "quantifier": "all 64-bit metadata words, all slots, all states", "why_tests_cant": "2^64 words cannot be enumerated.", "anchors": ["src/tree_index/leaf.rs: Dimension"]}
{"id": "C28", "title": "A leaf is a sorted map of bounded size", "statement": "On a leaf no other thread touches, insert, remove_if, search, max_less, min_greater_equal and iteration agree with a sorted map; insert answers Full only if no slot is free and never drops an entry.", "quantifier": "all operation sequences, all totally ordered key types", "why_tests_cant": "Slot order and key order are unrelated; the rank permutation has 14! states.", "anchors": ["src/tree_index/leaf.rs: insert, post_insert, remove_if, search_slot, next, min_greater_equal, max_less"]}
{"id": "C29", "title": "Concurrent inserts and removals on a leaf are linearizable", "statement": "When any number of threads insert into, remove from and search one leaf, every successful insert of a key is matched by at most one successful removal before the next successful insert of that key, two live slots never hold equal keys, and searches return values present during the call.", "quantifier": "all numbers of threads and all interleavings of their single atomic accesses", "why_tests_cant": "The leaf is updated by CAS on one word with slots reserved before keys are written; duplicates need a precise interleaving.", "anchors": ["src/tree_index/leaf.rs: insert, post_insert, rollback, remove_if, search_slot"]}
{"id": "C30", "title": "A retired leaf stays dead", "statement": "Once a leaf has been retired no insert into it succeeds and no entry ever becomes visible in it again; a frozen leaf rejects every change until it is thawed.", "quantifier": "all interleavings of inserts, removals, freeze and thaw", "why_tests_cant": "Insertion reserves the slot before it re-checks the flags.", "anchors": ["src/tree_index/leaf.rs: insert, post_insert, rollback, remove_if, freeze, thaw"]}
{"id": "C31", "title": "TreeIndex behaves as an ordered map for every operation sequence", "statement": "Every sequence of insert, remove, remove_if, peek and clear on a TreeIndex returns exactly the results of an ordered finite map, across all node splits, merges and root changes.", "quantifier": "all finite operation sequences, all totally ordered key types, trees of every height", "why_tests_cant": "Splits at internal levels need thousands of keys in adversarial order; all orders cannot be tried.", "anchors": ["src/tree_index.rs: insert_sync, remove_if_sync, peek, clear", "src/tree_index/leaf_node.rs", "src/tree_index/internal_node.rs", "src/tree_index/node.rs"]}
{"id": "C32", "title": "TreeIndex iteration yields all entries in strictly ascending order", "statement": "On a tree no other thread touches, iter() yields every entry exactly once in strictly ascending key order and then None.", "quantifier": "all trees reachable by any operation sequence", "why_tests_cant": "The leaf chain is maintained by splits and removals; each shape is history dependent.", "anchors": ["src/tree_index.rs: Iter::next, iter", "src/tree_index/leaf.rs: Scanner::jump"]}
{"id": "C33", "title": "TreeIndex::range yields exactly the keys inside the bounds", "statement": "On a tree no other thread touches, range(b) yields exactly the entries whose key lies within b, in ascending order, for inclusive, exclusive and absent bounds on either side, until the first None.", "quantifier": "all trees, all bound pairs including empty and inverted ones", "why_tests_cant": "Bound checks are switched on and off per leaf depending on its keys.", "anchors": ["src/tree_index.rs: Range::next, next_unbounded, set_check_upper_bound"]}
{"id": "C34", "title": "remove_range removes exactly the keys in the range", "statement": "After remove_range(b), exactly the entries whose key was inside b are gone and all others are kept, for all bound kinds.", "quantifier": "all trees of any height, all bound pairs", "why_tests_cant": "The traversal discards whole subtrees based on a small state machine over separator keys.", "anchors": ["src/tree_index.rs: remove_range_sync", "src/tree_index/leaf_node.rs: remove_range, RemoveRangeState::next", "src/tree_index/internal_node.rs: remove_range", "src/tree_index/leaf.rs: remove_range"]}
{"id": "C35", "title": "TreeIndex iterators are fused", "statement": "After Iter or Range has returned None it keeps returning None, as promised by FusedIterator; in particular Range never yields a key below its lower bound.", "quantifier": "all trees, all bounds, all numbers of further calls", "why_tests_cant": "Tests stop at the first None.", "anchors": ["src/tree_index.rs: Iter::next, Range::next, FusedIterator"]}
{"id": "C36", "title": "Range never yields a key outside its bounds under concurrent removal", "statement": "While other threads insert and remove, every key yielded by Range satisfies the bounds.", "quantifier": "all interleavings of the iterator's steps with removals", "why_tests_cant": "The violating window is between taking a snapshot of a leaf and reading its largest key.", "anchors": ["src/tree_index.rs: set_check_upper_bound, Range::next", "src/tree_index/leaf.rs: Scanner, max_key"]}
{"id": "C37", "title": "A full node splits into two correctly ordered halves", "statement": "Splitting a full leaf or node keeps every entry, puts all smaller keys in the left part, and gives both parts at least one entry, so the retried insertion succeeds.", "quantifier": "all full leaves, all key orders, all slot permutations", "why_tests_cant": "The split point is computed from the permutation of ranks over slots.", "anchors": ["src/tree_index/leaf.rs: optimal_boundary, freeze_and_distribute", "src/tree_index/leaf_node.rs: split_leaf, split_leaf_node"]}
{"id": "C38", "title": "Copies and conversions preserve contents", "statement": "clone() of a quiescent container equals it, equality is extensional equality of contents, building from an iterator gives the documented map (last value wins for HashMap, first wins for HashSet, HashIndex and HashCache), and serialising then deserialising gives an equal container.", "quantifier": "all contents, all input sequences with repeated keys", "why_tests_cant": "Requires all contents and all duplicate patterns.", "anchors": ["src/hash_map.rs: Clone, PartialEq, FromIterator", "src/hash_set.rs", "src/tree_index.rs: Clone, PartialEq", "src/serde.rs"]}
{"id": "C39", "title": "Scope guards run exactly once", "statement": "The cleanup closure of an internal scope guard runs exactly once if the guard goes out of scope, on normal and unwinding paths alike, and never after forget.", "quantifier": "all control-flow paths through guarded code", "why_tests_cant": "Needs every exit path including panics and cancelled futures.", "anchors": ["src/exit_guard.rs: ExitGuard"]}
{"id": "C40", "title": "Load sampling stays in bounds and is an unbiased scaling", "statement": "The buckets read to estimate the load always exist, no bucket is counted twice, and the estimate is exact when all buckets have the same number of entries.", "quantifier": "all array lengths up to 2^57 buckets, all starting indices", "why_tests_cant": "Large arrays cannot be allocated in a test.", "anchors": ["src/hash_table.rs: sample, try_enlarge, try_shrink", "src/hash_table/bucket_array.rs: sample_size"]}
{"id": "C41", "title": "Entry API laws", "statement": "entry(k) is occupied exactly when k is present; or_insert, and_modify, insert_entry, remove_entry, get_mut and update act on exactly that key as on a finite map; replace swaps the stored key and keeps the value; HashSet::replace returns the previous equal key and stores the new one.", "quantifier": "all map states, all keys, all closures", "why_tests_cant": "Ranges over all table layouts and closures.", "anchors": ["src/hash_map.rs: Entry, OccupiedEntry, VacantEntry, replace_sync", "src/hash_set.rs: replace_sync"]}
{"id": "C42", "title": "A resize is started only for a reason and always helps", "statement": "The resize decision never oscillates for a fixed set of entries: growing is decided only when the estimate is at least 13/16 of capacity or the minimum capacity demands it, shrinking only when it is at most 1/8, and right after a resize with an exact estimate neither condition holds again unless a limit is hit.", "quantifier": "all capacities, estimates and limits", "why_tests_cant": "Arithmetic over the full 64-bit range.", "anchors": ["src/hash_table.rs: try_resize, try_enlarge, try_shrink"]}
{"id": "C43", "title": "Stepping an entry cursor through a HashIndex visits every entry even when values are updated", "statement": "For a HashIndex that nobody else modifies, starting at begin_sync/begin_async and repeatedly calling next (or remove_and) on the occupied entry visits every entry exactly once, also when the visitor calls update on the entries it is at.", "quantifier": "all contents of the container, all choices at each entry of leaving it, removing it or updating its value", "why_tests_cant": "Whether entries are skipped depends on which free slot the updated copy lands in relative to the entries not yet visited; a test exercises a few layouts only, and a skipped entry goes unnoticed unless the test counts visits against an independent copy.", "anchors": ["src/hash_index.rs: OccupiedEntry::update, OccupiedEntry::next_sync, OccupiedEntry::remove_and_sync, HashIndex::begin_sync", "src/hash_table/bucket.rs: Bucket::insert, Bucket::mark_removed, EntryPtr::move_to_next", "src/hash_table.rs: LockedBucket::next_sync"]}
{"id": "C44", "title": "Inserting into a TreeIndex leaf reports a duplicate only if the key is there", "statement": "When insert_sync or insert_async hands the entry back as a duplicate, an entry with an equal key was in the index at some instant between the call and the return.", "quantifier": "all numbers of threads, all interleavings of their single atomic accesses to one leaf with splits of the leaf that are begun and given up", "why_tests_cant": "The false answer needs a split to freeze the leaf between the reservation and the publication of a slot, and to be rolled back before the reserved slot is given back.", "anchors": ["src/tree_index/leaf.rs: post_insert, rollback, freeze, thaw", "src/tree_index/leaf_node.rs: insert, split_leaf, rollback", "src/tree_index/internal_node.rs: split_node"]}
{"id": "C45", "title": "TreeIndex iterators yield keys in ascending order while the tree is modified", "statement": "The keys yielded by Iter or Range before the first None are strictly ascending, also when entries are inserted or removed between or during the calls of next().", "quantifier": "all trees, all sequences of modifications between the calls of next(), of every kind; all executions of other threads that insert and remove", "why_tests_cant": "The disorder needs a range removal that drops an inner node as a whole while an iterator stands in it, and later insertions that reuse the remaining leaves; or a split that is rolled back between two loads of the iterator.", "anchors": ["src/tree_index.rs: Iter::next, Range::next", "src/tree_index/leaf.rs: Scanner::jump", "src/tree_index/internal_node.rs: remove_range"]}
{"id": "C46", "title": "HashIndex reads do not go back in time", "statement": "If a peek of a key returned its value and the key is not removed or replaced afterwards, every peek that begins later finds the key too.", "quantifier": "all interleavings of two readers with the individual stores of inserting, removing and updating threads", "why_tests_cant": "The window is a single store between two others of an insertion; a test would have to stop the inserting thread there and run two readers.", "anchors": ["src/hash_table/bucket.rs: insert, insert_entry, search_entry", "src/hash_index.rs: peek, peek_with, contains"]}
{"id": "C47", "title": "A hash container used by one thread is a finite map through all resizes", "statement": "Every sequence of insert, upsert, update, remove, remove_if, read, len, is_empty, capacity reservation and release, iteration, retain and clear by one thread on a HashMap, HashSet or HashIndex of any initial capacity returns what a finite map returns, never gets stuck, and leaves exactly the entries of that map, whatever growing, shrinking and incremental rehashing happens on the way.", "quantifier": "all call sequences, all hash functions including colliding ones, all initial capacities, all answers of the epoch check", "why_tests_cant": "Which calls trigger a resize and how far the incremental rehash has come depends on hash values and sampled bucket sizes; the combinations with overflow chains and removed slots are unbounded.", "anchors": ["src/hash_table.rs: writer_sync, optional_writer_sync, reader_sync, try_resize, incremental_rehash_sync, relocate_bucket_sync", "src/hash_table/bucket.rs", "src/hash_table/bucket_array.rs"]}
{"id": "C48", "title": "A HashCache used by one thread is a finite map that loses entries only by reported evictions", "statement": "Every sequence of put, replace, entry and get calls, remove, remove_if, read, len, iteration, retain and clear by one thread on a HashCache of any minimum and maximum capacity returns what a finite map returns, except that putting a new key may remove one entry under another key, which is then handed back to the caller; no call gets stuck, and the cache holds exactly the entries of that map, whatever growing, shrinking and incremental rehashing happens on the way.", "quantifier": "all call sequences, all hash functions including colliding ones, all capacity limits", "why_tests_cant": "Evictions interleave with growing, shrinking and relocation, and the LRU list inside a bucket is linked through slot numbers that relocation, removal and eviction all touch; the combinations are unbounded.", "anchors": ["src/hash_cache.rs", "src/hash_table/bucket.rs: evict_lru_head, update_lru_tail, remove, insert, DoublyLinkedList", "src/hash_table.rs: writer_sync, try_resize, relocate_bucket_sync"]}
{"id": "C49", "title": "Insertions do not shrink a table and removals do not grow it", "statement": "A call that inserts or updates an entry and removes none never leaves the container with a smaller capacity than before, and a call that removes an entry never leaves it with a larger one.", "quantifier": "all histories by one thread, all hash functions, all keys", "why_tests_cant": "The decision to resize and the new capacity are based on samples of different buckets, so the disagreement only shows for particular distributions of the hash values.", "anchors": ["src/hash_table.rs: try_enlarge, try_shrink, try_resize, sample", "src/hash_table/bucket_array.rs: sample_size, initiate_sampling"]}
{"id": "C50", "title": "A panic in user code does not damage a TreeIndex", "statement": "If a comparison of keys, a clone of a key or value, or the condition of remove_if panics in a call of insert or remove_if and the panic is caught, the call has no effect visible to later calls, except that the entry to be removed may be gone; all later calls answer as if the panicking call had not been made, and iterators yield exactly the entries of the map, in order.", "quantifier": "all histories by one thread, any number of panics, any place of the panic", "why_tests_cant": "There are many places at which user code is called, most of them in the middle of splits and merges of leaves and nodes, and damage to the linked list of leaves only shows in iterations after further calls.", "anchors": ["src/tree_index.rs: Unwind safety (documentation of TreeIndex)", "src/tree_index/leaf_node.rs: split_leaf, rollback, coalesce", "src/tree_index/internal_node.rs: split_node, rollback", "src/tree_index/node.rs: split_root", "src/tree_index/leaf.rs: insert, post_insert, freeze_and_distribute"]}
{"id": "C51", "title": "Concurrent insert, remove and peek on a TreeIndex agree with a map while leaves and nodes split and merge", "statement": "In every execution the calls of insert, remove_if and peek agree with one map: an entry is added only by an insert with that key and value that has not added one before and only while the key has no entry; an entry is taken away only by a remove_if with that key, only if it is in the map and satisfies the condition; insert returns Ok exactly if it added its entry, and Err only if the key had an entry at some moment of the call; remove_if returns true exactly if it took an entry away, and false only if at some moment of the call the key had no entry or one that does not satisfy the condition; peek returns what the key was mapped to at some moment of the call. In particular no split or merge loses, duplicates or hides an entry.", "quantifier": "all executions of any number of threads calling insert, remove_if and peek, all keys and values, all interleavings with splits of leaves, nodes and the root and with merges", "why_tests_cant": "An entry is lost only if a thread goes through a pointer or a set of keys that a split or a merge is replacing at that moment; the windows are a few instructions wide and depend on the shape of several levels of the tree.", "anchors": ["src/tree_index.rs: insert_sync, remove_if_sync, peek", "src/tree_index/node.rs: split_root, cleanup_root", "src/tree_index/internal_node.rs: split_node, coalesce, search_value, insert, remove_if", "src/tree_index/leaf_node.rs: split_leaf, commit, coalesce, search_value, insert, remove_if"]}
{"id": "C52", "title": "One call of TreeIndex::remove removes at most one entry", "statement": "A call of remove or remove_if (sync or async) takes at most one entry out of the index, whatever other threads do; so the number of entries ever taken out is at most the number of calls that return true.", "quantifier": "all executions of any number of threads calling insert, remove_if and peek, all keys and values, all structural changes", "why_tests_cant": "A call can take a second entry only if the root retires, another thread holds its lock in cleanup_root at the moment the removal tries to take it, and the key is inserted again before the removal descends once more.", "anchors": ["src/tree_index.rs: remove_if_sync, remove_if_async", "src/tree_index/node.rs: cleanup_root"]}
{"id": "C53", "title": "TreeIndex point operations are linearizable under every schedule", "statement": "Every concurrent history of calls of insert, remove_if and peek on a TreeIndex, and of what they return, could have been produced by an atomic ordered map that does all of a call at one moment between its beginning and its return.", "quantifier": "all executions of any number of threads calling insert, remove_if and peek, all keys and values, all structural changes", "why_tests_cant": "The histories that cannot be explained arise only if several threads meet at a root that retires, with a lock held for a few instructions.", "anchors": ["src/tree_index.rs: insert_sync, remove_if_sync, peek", "src/tree_index/node.rs: split_root, cleanup_root", "src/tree_index/internal_node.rs", "src/tree_index/leaf_node.rs"]}
{"id": "C54", "title": "TreeIndex::iter beside concurrent insertions and removals is sound and complete", "statement": "Every entry that an Iter of a TreeIndex yields was in the index at some moment since the first call of next(). When next() returns None for the first time, every entry that was in the index all the time since the first call has been yielded.", "quantifier": "all executions of any number of threads calling insert, remove_if and peek and of any number of iterators, all keys and values, all structural changes", "why_tests_cant": "An entry is lost or an old one is found only if an iterator comes by between two particular stores of a split, a rollback or a removal of a node.", "anchors": ["src/tree_index.rs: Iter::next", "src/tree_index/leaf.rs: Scanner::jump", "src/tree_index/leaf_node.rs: min, split_leaf, coalesce, commit, rollback", "src/tree_index/internal_node.rs: min, split_node"]}
{"id": "C55", "title": "HashIndex::iter beside concurrent operations and resizing yields what is there", "statement": "Every entry that an Iter of a HashIndex yields was in the index at some moment since the first call of next(), or an operation in progress at that moment was storing it. When next() returns None for the first time, every key that was in the index all the time, and that no call removed or updated meanwhile, has been yielded; and it has been yielded exactly once if the index was not resized meanwhile.", "quantifier": "all executions of any number of threads that insert, remove, update and read, with any number of resizes and any progress of the relocation of entries at every moment of the iteration, all keys, values and hash functions", "why_tests_cant": "An entry could be lost only if it is moved from an old bucket to a new one exactly between the visits of the two, or if a bucket changes between two loads of a visit; the number of interleavings with a resize is far beyond what a test can reach.", "anchors": ["src/hash_index.rs: Iter::next, HashIndex::iter", "src/hash_table/bucket.rs: EntryPtr::move_to_next, next_entry", "src/hash_table.rs: relocate_bucket, try_resize"]}
{"id": "C56", "title": "Hash containers survive panics in user code and failing allocations", "statement": "If a comparison of keys, a closure passed by the user, or an allocation unwinds out of a call of HashMap, HashSet, HashIndex or HashCache, then the call has had no effect, or, for a traversal, the effect of the closure calls that completed; no bucket stays locked, all other calls complete, and every history, including later calls, is one that a map could have produced. (As documented: the hash function and the destructors of keys and values do not panic.)", "quantifier": "all executions of any number of threads with any number of unwinding calls at any point, all keys, values and hash functions, all resizes", "why_tests_cant": "The panic must hit a particular instruction of a relocation beside a thread that has loaded the old array; failing allocations cannot be injected at will.", "anchors": ["src/hash_map.rs: documentation, section Unwind safety", "src/hash_table.rs: relocate_bucket_sync, relocate_bucket, incremental_rehash_sync", "src/hash_table/bucket.rs: Writer::drop, Reader::drop, extract_from, insert_overflow"]}
{"id": "C57", "title": "Moving entries to another bucket allocates nothing once slots were reserved", "statement": "When a resize moves the entries of a bucket, all memory this takes is allocated before the first entry is moved: after reserve_slots(n) on a bucket, n entries are inserted without allocating a linked bucket.", "quantifier": "all buckets of all container kinds, all numbers of entries, all hashes, all answers of the epoch check", "why_tests_cant": "An allocation at the wrong moment is invisible unless it fails, and the buckets concerned have more than 32 entries with one target.", "anchors": ["src/hash_table.rs: relocate_bucket", "src/hash_table/bucket.rs: reserve_slots, insert, insert_overflow, clear_unreachable_entries"]}
{"id": "C58", "title": "HashCache beside other threads: every pair put in is handed out once or still there", "statement": "When any number of threads use a HashCache while it is resized, each call takes effect at one instant; a put of an absent key may at that instant take exactly one other entry out and returns it. Whatever a call shows was put before, and, when no call is running, each pair was stored as often as it was returned as evicted or removed, plus one if it is still in the cache.", "quantifier": "all numbers of threads, all programs of put, try_entry, get, read, contains, remove, remove_if, all interleavings with resizing, dropped futures and panics, all choices of the evicted entry", "why_tests_cant": "A lost or doubly reported eviction needs a put to race with the relocation of the bucket it evicts from; tests run few schedules and do not account for every pair.", "anchors": ["src/hash_cache.rs: put_sync, put_async, get_sync, remove_if_sync, VacantEntry::put_entry", "src/hash_table/bucket.rs: evict_lru_head", "src/hash_table.rs: writer_sync, relocate_bucket_sync"]}
{"id": "C59", "title": "Asynchronous calls of hash containers access only bucket arrays that are there", "statement": "However the task that runs an asynchronous call of HashMap, HashSet, HashIndex or HashCache is suspended, resumed or dropped, the call reads no bucket array after it was freed and no bucket beyond the end of an array, and it relocates entries only into buckets that are in use.", "quantifier": "all executions: any number of suspensions of the call at any lock, any creation, resize, relocation, retirement and freeing of arrays by other threads in between, any addresses for new arrays, all hashes", "why_tests_cant": "The array has to be replaced twice and freed between two adjacent statements of a task that has just been woken up; the access usually reads what the freed memory still contains, so nothing is observed.", "anchors": ["src/async_helper.rs: AsyncGuard", "src/hash_table.rs: reader_async, writer_async, optional_writer_async, for_each_reader_async, for_each_writer_async, incremental_rehash_async, dedup_bucket_async, relocate_bucket_async", "src/hash_table/bucket.rs: Writer::lock_async, Reader::lock_async"]}
{"id": "C60", "title": "Lock-free lookups of HashIndex are right on weakly ordered machines", "statement": "A lookup (peek, peek_with, contains) in a HashIndex of a key whose insertion happened before the lookup began, and which is in the index all the time until the lookup ends, finds it, also while the index is being resized. Everything a lookup reads that is not atomic was completely written before, in the sense of the memory model; in particular an entry it hands out is complete and is not dropped as long as its guard is there.", "quantifier": "all executions under the release/acquire/relaxed rules of the memory model: any number of threads that insert, remove, relocate and recycle slots, any stale values the rules allow a load to return, all keys and hashes", "why_tests_cant": "Tests run on x86, where loads are not reordered and stores are seen in order; the stale values appear on other processors or after compiler optimisations, in windows of a few instructions.", "anchors": ["src/hash_table/bucket.rs: len, insert, insert_entry, mark_removed, extract_from, drop_unreachable_entries, search_entry, search_data_block", "src/hash_table.rs: peek_entry, end_incremental_rehash, incremental_rehash_sync", "src/hash_table/bucket_array.rs: linked_array"]}
{"id": "C61", "title": "remove_range beside other calls leaves keys outside the range alone and removes those inside", "statement": "While remove_range_sync or remove_range_async of a TreeIndex runs, every peek, insert and remove by another thread on a key outside the range does what it would do if remove_range were not called: it finds what is there, an insertion that succeeds stays, and no second entry for a key is accepted. When remove_range has returned, a key in the range is found only if an insertion of it was made after remove_range had begun.", "quantifier": "all ranges, all nodes the call passes through with any number of children, all keys, any number of other threads, all interleavings of accesses to keys, versions and pointers of the node", "why_tests_cant": "The harmful window is between two adjacent stores in a node on the lower border of the range in a tree of at least three levels; a test would have to stop the thread there.", "anchors": ["src/tree_index/internal_node.rs: InternalNode::remove_range, search_value, insert, remove_if", "src/tree_index/leaf_node.rs: LeafNode::remove_range, RemoveRangeState::next", "src/tree_index/leaf.rs: min_greater_equal, remove_if, validate, remove_range"]}
{"id": "C62", "title": "Calls on single keys of TreeIndex are linearizable on weakly ordered machines", "statement": "The results of peek, contains, insert, remove and remove_if of any number of threads on a TreeIndex, with leaves being split and retired meanwhile, are those of some sequential order of the calls that agrees with the order of the calls of each thread and with synchronisation between threads. In particular a call that happens after an insertion finds the key if it was not removed since, no insertion that succeeded is lost, and never are two entries accepted for one key.", "quantifier": "all executions under the release/acquire/relaxed rules of the memory model: any number of threads, any keys and values, any stale values the rules allow a load to return, splits and removals of leaves at any time", "why_tests_cant": "Tests run on x86, where loads are not reordered and every read-modify-write is a full barrier; the stale values appear on other processors or after compiler optimisations only.", "anchors": ["src/tree_index.rs: TreeIndex (\"methods are linearizable\")", "src/tree_index/leaf_node.rs: search_entry, search_value, insert, remove_if, split_leaf, coalesce", "src/tree_index/leaf.rs: insert, post_insert, rollback, remove_if, search_entry, min_greater_equal, validate, freeze_and_distribute, thaw"]}
{"id": "C63", "title": "Calls of TreeIndex never deadlock", "statement": "Threads in synchronous and asynchronous calls of a TreeIndex (insert, remove, remove_if, remove_range, clear, lookups) never wait for each other in a circle, and none waits for a lock it holds itself: in every state some call that is in progress can go on, and if no new attempts are begun, all calls in progress stop holding locks and end or start again from the root after finitely many steps, whatever the scheduler does. A call that has returned, and a future that is dropped, holds no lock. No node that a call can reach from the root has a lock that was abandoned (poisoned).", "quantifier": "all executions: any number of threads, trees of any shape and height, all interleavings of lock acquisitions, releases, waits and changes of the tree, failing allocations and comparisons that unwind", "why_tests_cant": "remove_range_sync waits with the locks of all ancestors held while splits take locks from the leaves upwards; a deadlock would need splits that reach different heights to meet remove_range at particular nodes, and a test that hangs rarely says nothing about all shapes of the tree.", "anchors": ["src/tree_index/internal_node.rs: split_node, finish_split, commit, rollback, remove_range, coalesce, Locker", "src/tree_index/leaf_node.rs: split_leaf, split_leaf_node, commit, rollback, remove_range, coalesce, Locker", "src/tree_index/node.rs: split_root, cleanup_root", "src/tree_index.rs: insert_sync, insert_async, remove_range_sync, remove_range_async, clear", "src/async_helper.rs: TryWait"]}
{"id": "C64", "title": "Entries in leaves of TreeIndex are never read before they are written, nor dropped twice, also on weakly ordered machines", "statement": "In calls of TreeIndex that work on the same leaf at the same time, no two accesses to the memory of an entry are in a data race: an entry is written only after all earlier accesses to its slot, and read only after it was written, in the order of happens-before given by the atomic operations of the code. A key or value that a call compares, returns by reference or clones is always one that was put there completely, and a reference handed out stays valid and unchanged while the leaf exists, even if the entry is removed. If insert gives a pair back, it is the pair it was given. When the leaf is dropped, every pair that was ever passed to insert or filled into the leaf has been given back or is dropped, each exactly once, also if comparisons panicked.", "quantifier": "all executions under the release/acquire rules: any number of threads inserting, rolling back, removing, looking up, iterating, freezing and thawing; every load may return any value its thread may still see; any number of slots and of entries filled in before; comparisons that panic at any point", "why_tests_cant": "On x86 every atomic operation of the code is a full barrier or an acquire, so a missing ordering does not show; a stale slot is read only if a slot is rolled back and reserved again between two instructions of another thread; a double drop of an entry whose insertion panicked needs a panic and a rollback to meet in one leaf.", "anchors": ["src/tree_index/leaf.rs: insert, post_insert, rollback, write, take, key_at, value_at, remove_if, freeze, thaw, freeze_and_distribute, insert_unchecked, Drop", "src/tree_index/leaf_node.rs: split_leaf"]}
{"id": "C65", "title": "The memory of a hash table is large enough, aligned, and requested and returned correctly, for every capacity and entry type", "statement": "Creating a HashMap, HashSet, HashIndex or HashCache with any capacity, or letting it allocate a bucket array, makes only requests the allocator permits (a size that is neither 0 nor more than isize::MAX). If it succeeds, every bucket and every slot the table can address lies inside the memory it was given, aligned, and apart from all other slots; dropping the table returns the memory exactly as it was requested. If it panics, no memory is lost.", "quantifier": "all capacities, all sizes and alignments of keys and values, 16 to 64-bit machines, builds with and without overflow checks, all addresses an allocator may return and all its failures", "why_tests_cant": "Tests use small capacities and small entries on 64-bit machines in debug builds, where overflows panic; the products that overflow need gigantic capacities or large entries on 32-bit machines, zero-sized requests work by chance with common allocators, and lost memory is not noticed after a panic.", "anchors": ["src/hash_table/bucket_array.rs: BucketArray::new, bucket_array_layout, bucket, data_block, Drop", "src/hash_table/bucket.rs: Bucket, DataBlock", "src/hash_table.rs: capacity_from_size_hint", "src/hash_cache.rs: with_capacity_and_hasher", "src/hash_map.rs: with_capacity_and_hasher, FromIterator"]}
{"id": "C66", "title": "Calls on single keys of HashMap and HashSet are linearizable and free of data races, also on weakly ordered machines", "statement": "Whatever threads call insert, entry, update, remove, read, contains and the like on a HashMap or HashSet, while it is allocated, resized, relocated bucket by bucket and dropped when empty, there is one order of all calls in which every result is the one the call has on an ordinary map, and in which no call comes before one that happens before it (made earlier by the same thread, or known to it by any synchronisation inside or outside of the container). No two accesses to the entries of a bucket, of which one changes them, are in a data race. An array is used only by threads that have acquired it, entries are never moved to a bucket that was given up, and a new array is linked to the very array it replaces.", "quantifier": "all executions under the release/acquire rules, in which the pointer to the array and the links may be read stale; any number of threads, keys, calls, resizes and drops of the empty table, any map from keys to buckets for each array; threads communicate outside of the container at any time", "why_tests_cant": "On x86 loads are never older than what other threads have written before, so a missing ordering does not show; a stale pointer matters only if the array was resized and its buckets relocated between two instructions of a thread, or if the empty table is dropped and allocated again meanwhile.", "anchors": ["src/hash_map.rs: \"Linearizability: HashMap manipulation methods are linearizable\"", "src/hash_table.rs: bucket_array, get_or_create_bucket_array, allocate_bucket_array, reader_sync, writer_sync, optional_writer_sync, dedup_bucket_sync, relocate_bucket_sync, incremental_rehash_sync, try_resize", "src/hash_table/bucket_array.rs: linked_array, has_linked_array"]}
{"id": "C67", "title": "Lookups of HashIndex without locks return a value the key had, not older than the calls the caller knows of, also on weakly ordered machines", "statement": "While a HashIndex is changed, resized, relocated bucket by bucket and dropped when empty, peek, peek_with and contains return what the key had after some first part of the (linearized) calls, such that no later call on this key happens before the lookup. In particular a lookup finds the key if it was inserted by a call that happens before the lookup and no call removes it, although its entry may be moved from one array to the next meanwhile; and if all calls on the key that have taken effect happen before the lookup, it returns exactly the present value.", "quantifier": "all executions under the release/acquire rules, in which the pointer to the array, the links and the state of every bucket may be read stale; any number of threads, keys, calls, lookups, resizes and drops of the empty table, any map from keys to buckets for each array; threads communicate outside of the container at any time", "why_tests_cant": "A lookup has to load the link of an array while the bucket is relocated, read the old bucket without seeing the removal or the new bucket without seeing the insertion, and this with values that a machine such as x86 never returns stale.", "anchors": ["src/hash_index.rs: \"peek ... returns Some if the key exists\", \"Linearizability\"", "src/hash_table.rs: peek_entry, relocate_bucket_sync, incremental_rehash_sync, bucket_array", "src/hash_table/bucket.rs: search_entry, extract_from, mark_removed", "src/hash_table/bucket_array.rs: linked_array"]}
{"id": "C68", "title": "TreeIndex::clear is linearizable beside calls on single keys", "statement": "Every concurrent history of calls of clear, insert, remove_if and peek on a TreeIndex could have been produced by an ordinary map that is given the calls one after the other, where no call comes after one that began after it had returned, and clear empties the map. In particular what was inserted by calls that returned before a call of clear began is gone when that call has returned; an insertion that goes on in the tree that clear has taken out counts as older than clear, although it returns later.", "quantifier": "all executions of any number of threads calling clear, insert, remove_if and peek, all keys and values, however often trees are made, retire or are taken out", "why_tests_cant": "Calls that go on in a tree that is not the present one any more are seen only if clear, or the removal of the last entry, falls between the load of the root and the access to the leaf; tests that then find the key missing cannot say whether an order exists.", "anchors": ["src/tree_index.rs: clear, insert_sync, insert_async, remove_if_sync, remove_if_async, peek", "src/tree_index/node.rs: clear, cleanup_root", "src/tree_index/internal_node.rs: clear", "src/tree_index/leaf_node.rs: clear"]}
{"id": "C69", "title": "Suspended calls of TreeIndex wait only for locks that are still in memory", "statement": "While a call of insert_async, remove_async, remove_if_async or remove_range_async is suspended, the node in whose lock it waits is not freed, although the call holds no guard; so whoever releases the lock, and the call itself when its future is dropped, finds the queue of the lock in memory. No lock of a node is taken, released, poisoned or waited for after the memory of the node was returned.", "quantifier": "all executions of any number of threads and tasks; nodes made, locked, retired, unlinked and freed at any time; futures dropped at any time", "why_tests_cant": "The entry in the queue has a lifetime that the compiler does not check ('static by transmute). A violation needs a task suspended at a node that is unlinked, and the memory reused, between two polls.", "anchors": ["src/async_helper.rs: AsyncWait, TryWait", "src/tree_index.rs: insert_async, remove_if_async, remove_range_async", "src/tree_index/internal_node.rs: Locker, split_node, remove_range", "src/tree_index/leaf_node.rs: Locker, split_leaf"]}
