{"id": "C01", "title": "Serial inserts always succeed", "statement": "On an index driven by the serial scheduler with 1 <= low watermark <= high watermark, every insert() (and, with tombstone deletes, every erase()) that returns, returns 1: the caller never has to retry, whatever was done before.", "quantifier": "all layouts, all watermark/scale-factor settings with 1 <= lwm <= hwm, all histories of operations", "why_tests_cant": "depends on the exact buffer fill at every point of an unbounded history", "anchors": ["include/framework/DynamicExtension.h:internal_append", "include/framework/DynamicExtension.h:schedule_reconstruction", "include/framework/structure/MutableBuffer.h:append", "include/framework/structure/MutableBuffer.h:advance_head"]}
{"id": "C02", "title": "No acknowledged record is lost or invented (leveling, tiering)", "statement": "With tombstone deletes, for every record r, (stored live copies of r) - (stored tombstones of r) over buffer and shards equals (#successful inserts of r) - (#successful erases of r), no matter how many flushes and reconstructions happened.", "quantifier": "leveling and tiering layouts, all configurations, all finite histories, all records, every behaviour of the external priority queue", "why_tests_cant": "the quantity must be conserved by every flush and every merge of any shape", "anchors": ["include/framework/DynamicExtension.h:internal_append", "include/framework/structure/ExtensionStructure.h:reconstruction", "include/framework/structure/ExtensionStructure.h:flush_buffer", "include/util/SortedMerge.h:sorted_array_merge", "include/util/SortedMerge.h:sorted_array_from_bufferview"]}
{"id": "C03", "title": "No acknowledged record is lost under BSM", "statement": "The same conservation law holds for the BSM layout.", "quantifier": "all histories on a BSM index", "why_tests_cant": "the failing history needs a flush that cancels completely, followed by another flush", "anchors": ["include/framework/structure/ExtensionStructure.h:reconstruction(ReconstructionTask)", "include/framework/structure/InternalLevel.h:append_buffer", "include/framework/structure/InternalLevel.h:finalize"]}
{"id": "C04", "title": "Insert-only range query is exact", "statement": "If only inserts were performed, a range query [lo,hi] returns exactly the multiset of inserted records whose key is in [lo,hi]: nothing missing, nothing extra, right multiplicity.", "quantifier": "all layouts, all insert sequences, all lo/hi, every behaviour of the external priority queue", "why_tests_cant": "unbounded number of records, flushes and levels", "anchors": ["include/query/rangequery.h:local_query", "include/query/rangequery.h:local_query_buffer", "include/query/rangequery.h:combine", "include/framework/DynamicExtension.h:async_query"]}
{"id": "C05", "title": "Range query completeness with tombstone deletes", "statement": "A record with n more inserts than erases (n>0) and key in range is returned at least n times by a range query.", "quantifier": "all histories, all layouts except BSM's lost flushes, all ranges, every behaviour of the external priority queue", "why_tests_cant": "depends on all interleavings of inserts, erases and flushes", "anchors": ["include/query/rangequery.h:combine", "include/framework/DynamicExtension.h:async_query"]}
{"id": "C06", "title": "Range query does not return erased records (tombstones)", "statement": "After erase(r) succeeded on a record inserted once, a range query covering r does not return r.", "quantifier": "all histories in which each record is inserted at most once and erased at most once afterwards", "why_tests_cant": "holds or fails depending on where record and tombstone are when the query runs", "anchors": ["include/query/rangequery.h:combine", "include/query/rangequery.h:local_query_buffer"]}
{"id": "C07", "title": "Range query returns only stored, in-range records", "statement": "Every record returned by a range query was inserted and has lo <= key <= hi.", "quantifier": "all histories, layouts, delete policies and ranges", "why_tests_cant": "universal over histories", "anchors": ["include/query/rangequery.h:local_query", "include/query/rangequery.h:local_query_buffer", "include/query/rangequery.h:combine"]}
{"id": "C08", "title": "Range query does not return erased records (tagging)", "statement": "With tagging deletes, after erase(r) returned 1 a range query does not return r.", "quantifier": "all tagging histories", "why_tests_cant": "depends on whether the tagged record was compacted away", "anchors": ["include/query/rangequery.h:local_query", "include/query/rangequery.h:combine", "include/framework/DynamicExtension.h:async_query"]}
{"id": "C09", "title": "Range count is exact with tagging deletes", "statement": "With tagging deletes, when the count query is defined it returns exactly the number of stored, not-erased records with key in range.", "quantifier": "all tagging histories, layouts, ranges", "why_tests_cant": "unbounded histories", "anchors": ["include/query/rangecount.h:local_query", "include/query/rangecount.h:local_query_buffer", "include/query/rangecount.h:combine"]}
{"id": "C10", "title": "Range count accounts for tombstones", "statement": "With tombstone deletes the range count equals (live copies in range) - (tombstones in range).", "quantifier": "all tombstone histories", "why_tests_cant": "needs an erased record not yet cancelled by a merge", "anchors": ["include/query/rangecount.h:combine", "include/query/rangecount.h:local_query"]}
{"id": "C11", "title": "Range count is always defined", "statement": "A range count over any [lo,hi] has defined behaviour.", "quantifier": "all index states and ranges", "why_tests_cant": "undefined behaviour only when some shard holds no key >= lo", "anchors": ["include/query/rangecount.h:local_query", "include/query/rangecount.h:combine"]}
{"id": "C12", "title": "Tagging erase reports presence truthfully", "statement": "With tagging, erase(r) returns 1 if and only if a not yet erased copy of r was in the index.", "quantifier": "all tagging histories and records", "why_tests_cant": "corner cases: empty ring, default-constructed slots, already tagged copies", "anchors": ["include/framework/DynamicExtension.h:erase", "include/framework/structure/BufferView.h:delete_record", "include/framework/structure/InternalLevel.h:delete_record", "include/framework/structure/ExtensionStructure.h:tagged_delete"]}
{"id": "C13", "title": "Tagging erase removes exactly one live copy", "statement": "When erase(r) returns 1 under tagging, the number of live copies of r drops by exactly one and no other record changes.", "quantifier": "all tagging histories", "why_tests_cant": "a re-inserted record can be shadowed by its tagged predecessor", "anchors": ["include/framework/DynamicExtension.h:erase", "include/framework/structure/InternalLevel.h:delete_record", "include/framework/structure/BufferView.h:delete_record"]}
{"id": "C14", "title": "Record count is exact", "statement": "get_record_count() equals the number of stored entries (live, tagged and tombstones) in buffer and shards; for insert-only histories it equals the number of inserts.", "quantifier": "all histories, layouts", "why_tests_cant": "unbounded histories", "anchors": ["include/framework/DynamicExtension.h:get_record_count", "include/framework/structure/ExtensionStructure.h:get_record_count", "include/framework/structure/InternalLevel.h:get_record_count"]}
{"id": "C15", "title": "Tombstone count", "statement": "get_tombstone_count() is always 0 under tagging, and under tombstone deletes it equals the number of tombstones currently in the index.", "quantifier": "all histories", "why_tests_cant": "needs a flush between erase and the count", "anchors": ["include/framework/DynamicExtension.h:get_tombstone_count", "include/framework/structure/MutableBuffer.h:append", "include/framework/structure/MutableBuffer.h:advance_head"]}
{"id": "C16", "title": "Height never decreases and is logarithmic", "statement": "get_height() never decreases along a history, and n flushes build at most O(log n) levels under every layout (tiering and BSM: exactly the digits needed to write the flush count; leveling: at most one more than the logarithm of the flushed records in buffers, once there are three levels).", "quantifier": "all histories", "why_tests_cant": "unbounded histories", "anchors": ["include/framework/DynamicExtension.h:get_height", "include/framework/structure/ExtensionStructure.h:grow", "include/framework/structure/ExtensionStructure.h:get_reconstruction_tasks"]}
{"id": "C17", "title": "Tiering level capacity", "statement": "Under tiering, level i never holds more than scale_factor shards nor more than buffer_hwm * scale_factor^(i+1) records.", "quantifier": "all histories, configurations with scale factor >= 1, all levels", "why_tests_cant": "unbounded histories", "anchors": ["include/framework/structure/ExtensionStructure.h:can_reconstruct_with", "include/framework/structure/ExtensionStructure.h:reconstruction", "include/framework/structure/InternalLevel.h:append_level"]}
{"id": "C18", "title": "Leveling level capacity", "statement": "Under leveling, level i never holds more than buffer_hwm * scale_factor^(i+1) records.", "quantifier": "all histories, configurations, levels", "why_tests_cant": "violations need several levels of merging", "anchors": ["include/framework/structure/ExtensionStructure.h:find_reconstruction_target", "include/framework/structure/ExtensionStructure.h:can_reconstruct_with", "include/framework/structure/ExtensionStructure.h:calc_level_record_capacity"]}
{"id": "C19", "title": "BSM is a binary counter", "statement": "Under BSM with insert-only histories, after n flushes level 0 holds one buffer-full and level i+1 holds records iff bit i of n-1 is set (2^i buffers worth).", "quantifier": "all n", "why_tests_cant": "unbounded number of flushes", "anchors": ["include/framework/structure/ExtensionStructure.h:get_reconstruction_tasks_from_level", "include/framework/structure/ExtensionStructure.h:reconstruction(ReconstructionTask)"]}
{"id": "C20", "title": "A flush always fits in level 0", "statement": "The framework's own precondition for flushing the buffer (the assert in flush_buffer) holds on every flush: the process never aborts there.", "quantifier": "all histories, layouts, configurations", "why_tests_cant": "unbounded histories", "anchors": ["include/framework/structure/ExtensionStructure.h:flush_buffer", "include/framework/structure/ExtensionStructure.h:get_reconstruction_tasks"]}
{"id": "C21", "title": "create_static_structure returns all records", "statement": "create_static_structure() returns a shard whose content is the whole index: net multiplicities are preserved, records are sorted, and for histories that insert and erase each record at most once it contains exactly the live records.", "quantifier": "all histories, layouts", "why_tests_cant": "unbounded histories", "anchors": ["include/framework/DynamicExtension.h:create_static_structure", "include/framework/structure/InternalLevel.h:get_combined_shard", "include/util/SortedMerge.h:sorted_array_merge"]}
{"id": "C22", "title": "Index operations never hit undefined behaviour (sorted shards)", "statement": "No sequence of inserts, erases and range queries makes the index read memory that is not a record.", "quantifier": "all histories", "why_tests_cant": "needs a shard all of whose records cancelled", "anchors": ["include/util/SortedMerge.h:sorted_array_merge", "include/shard/ISAMTree.h:get_lower_bound", "include/shard/ISAMTree.h:point_lookup"]}
{"id": "C23", "title": "Sorted merge law", "statement": "Merging shards yields a record-sorted array whose entries are the inputs' entries minus tagged entries and minus pairs (live record, equal tombstone); the reported record and tombstone counts match the array; without deletes it is a permutation of the inputs.", "quantifier": "any number of sorted input arrays of any size, every behaviour of the external priority queue", "why_tests_cant": "unbounded inputs", "anchors": ["include/util/SortedMerge.h:sorted_array_merge", "include/util/SortedMerge.h:build_cursor_vec", "include/util/Cursor.h:advance_cursor"]}
{"id": "C24", "title": "In-buffer insert then delete leaves no trace after a flush", "statement": "If r is inserted and later erased while both entries are in the buffer, then the shard built from that buffer contains neither.", "quantifier": "all buffer contents and ring positions", "why_tests_cant": "only fails when the ring wraps between the two entries", "anchors": ["include/util/SortedMerge.h:sorted_array_from_bufferview", "include/framework/structure/MutableBuffer.h:append", "include/framework/interface/Record.h:Wrapped::operator<"]}
{"id": "C25", "title": "ISAM tree search is exact", "statement": "get_lower_bound(k) returns the index of the first record with key >= k and get_upper_bound(k) the first with key > k (the record count if none), for any number of records and any node fanouts; building the tree writes only inside its allocation.", "quantifier": "all non-empty key-sorted arrays, all keys, all fanouts", "why_tests_cant": "tree shape depends on every size", "anchors": ["include/shard/ISAMTree.h:build_internal_levels", "include/shard/ISAMTree.h:get_lower_bound", "include/shard/ISAMTree.h:get_upper_bound"]}
{"id": "C26", "title": "Learned-index shard search is usable for range scans", "statement": "PGM and TrieSpline get_lower_bound return an index at or before the first record with key >= k, given that the underlying model's error bound is valid, and point_lookup then finds a record iff it is stored.", "quantifier": "all key-sorted arrays, all keys, all valid search bounds", "why_tests_cant": "unbounded inputs; boundary sizes such as exactly 50 records", "anchors": ["include/shard/PGM.h:get_lower_bound", "include/shard/TrieSpline.h:get_lower_bound"]}
{"id": "C27", "title": "Alias shard search", "statement": "Alias get_lower_bound/point_lookup find a stored record and report a missing one as missing, with no out-of-bounds access on a non-empty shard.", "quantifier": "all non-empty key-sorted arrays and records", "why_tests_cant": "unbounded inputs", "anchors": ["include/shard/Alias.h:get_lower_bound", "include/shard/Alias.h:point_lookup"]}
{"id": "C28", "title": "Sorted-shard point lookup", "statement": "ISAMTree/PGM/TrieSpline point_lookup(r) returns a stored entry equal to r iff one exists, and never reads past the array.", "quantifier": "all sorted arrays and records", "why_tests_cant": "out-of-bounds read only for one shape of key", "anchors": ["include/shard/ISAMTree.h:point_lookup", "include/shard/PGM.h:point_lookup", "include/shard/TrieSpline.h:point_lookup"]}
{"id": "C29", "title": "VPTree construction", "statement": "Building a VPTree permutes its records (none lost or duplicated), every record is reachable exactly once as a vantage point or in a leaf, and each subtree inside/outside a vantage point has distances <= radius / >= radius.", "quantifier": "all record arrays, distance functions, leaf sizes and random choices", "why_tests_cant": "depends on random pivots and unbounded sizes", "anchors": ["include/shard/VPTree.h:build_subtree", "include/shard/VPTree.h:quickselect", "include/shard/VPTree.h:partition"]}
{"id": "C30", "title": "k-NN search of a VPTree is exact", "statement": "For any metric, VPTree search returns k stored records nearest to the query point (all of them if fewer than k).", "quantifier": "all trees, metrics, query points and k >= 1", "why_tests_cant": "pruning correctness for all geometries", "anchors": ["include/shard/VPTree.h:internal_search", "include/shard/VPTree.h:search"]}
{"id": "C31", "title": "VPTree point lookup finds stored records", "statement": "point_lookup(r) returns a record equal to r iff one is stored in the shard.", "quantifier": "all trees and records", "why_tests_cant": "fails only for records chosen as non-root vantage points", "anchors": ["include/shard/VPTree.h:point_lookup"]}
{"id": "C32", "title": "k-NN query is exact across buffer and shards", "statement": "The k-NN query over buffer and shards returns k nearest records of their union.", "quantifier": "all buffers, shard results, k >= 1", "why_tests_cant": "unbounded inputs", "anchors": ["include/query/knn.h:local_query_buffer", "include/query/knn.h:combine"]}
{"id": "C33", "title": "k-NN query does not return erased records (tagging)", "statement": "After a tagging erase(r) returned 1 the k-NN query does not return r.", "quantifier": "all tagging histories", "why_tests_cant": "needs a tagged record still physically in a shard", "anchors": ["include/query/knn.h:local_query", "include/shard/VPTree.h:internal_search"]}
{"id": "C34", "title": "Independent range samples are drawn from the range", "statement": "Every record returned by an IRS query is stored in the index and has its key in range.", "quantifier": "all index states, ranges, sample sizes and random streams", "why_tests_cant": "all random choices", "anchors": ["include/query/irs.h:local_query", "include/query/irs.h:local_query_buffer", "include/query/irs.h:distribute_query"]}
{"id": "C35", "title": "IRS returns the requested number of samples", "statement": "If some stored record is in range, an IRS query returns exactly sample_size records.", "quantifier": "all random streams", "why_tests_cant": "needs particular rejections", "anchors": ["include/query/irs.h:repeat", "include/framework/DynamicExtension.h:async_query"]}
{"id": "C36", "title": "IRS terminates", "statement": "An IRS query terminates on every input, in particular when no record is in range.", "quantifier": "all inputs and random streams", "why_tests_cant": "divergence cannot be observed by a finite test", "anchors": ["include/query/irs.h:repeat", "include/query/irs.h:distribute_query", "include/framework/DynamicExtension.h:async_query"]}
{"id": "C37", "title": "Weighted sampling returns the requested number of samples", "statement": "A WSS query returns exactly sample_size records and every buffered record can be drawn.", "quantifier": "all random streams, buffers", "why_tests_cant": "needs particular rejections", "anchors": ["include/query/wss.h:distribute_query", "include/query/wss.h:repeat", "include/query/wss.h:local_query_buffer"]}
{"id": "C38", "title": "Point lookup returns the current record", "statement": "A point lookup of k returns the live record with key k if there is one, and nothing if it was erased.", "quantifier": "all histories with unique live keys, all layouts", "why_tests_cant": "depends on which shard holds which version", "anchors": ["include/query/pointlookup.h:local_query_buffer", "include/query/pointlookup.h:combine", "include/framework/DynamicExtension.h:async_query", "include/framework/structure/InternalLevel.h:get_local_queries"]}
{"id": "C39", "title": "Record header flags are independent", "statement": "Setting or clearing one of tombstone/deleted/visible/timestamp leaves the other fields as they were, and a timestamp below 2^29 reads back.", "quantifier": "all 2^32 headers and timestamps", "why_tests_cant": "state space too large", "anchors": ["include/framework/interface/Record.h:Wrapped"]}
{"id": "C40", "title": "Record orders are strict total orders", "statement": "operator< on records and wrapped records is a strict weak order consistent with operator==, so sorting and merging are well defined; string records compare like their NUL-terminated keys.", "quantifier": "all records", "why_tests_cant": "infinite domain", "anchors": ["include/framework/interface/Record.h:Record", "include/framework/interface/Record.h:Wrapped::operator<", "include/framework/interface/Record.h:Record<const char *, V>"]}
{"id": "C41", "title": "Buffer views read back what was appended", "statement": "A buffer view returns exactly the records appended since its head, in order, whatever the ring position; all slot indices are inside the allocation; copying a view out gives the same sequence.", "quantifier": "all append/advance histories, all capacities", "why_tests_cant": "all ring offsets", "anchors": ["include/framework/structure/MutableBuffer.h:append", "include/framework/structure/BufferView.h:get", "include/framework/structure/BufferView.h:copy_to_buffer", "include/framework/structure/BufferView.h:to_idx"]}
{"id": "C42", "title": "The buffer never exceeds its high watermark under concurrency", "statement": "At every moment of every interleaving of appends and head advances, head <= tail <= head + hwm, and no two successful appends claim the same position.", "quantifier": "all thread counts and interleavings", "why_tests_cant": "unbounded schedules", "anchors": ["include/framework/structure/MutableBuffer.h:try_advance_tail", "include/framework/structure/MutableBuffer.h:advance_head"]}
{"id": "C43", "title": "A pinned buffer view is never overwritten", "statement": "While a view is held, no append overwrites a slot belonging to the view, under any interleaving of appends, view acquisitions, releases and head advances.", "quantifier": "all interleavings (release treated as one atomic step)", "why_tests_cant": "unbounded schedules", "anchors": ["include/framework/structure/MutableBuffer.h:get_head", "include/framework/structure/MutableBuffer.h:advance_head", "include/framework/structure/MutableBuffer.h:release_head_reference"]}
{"id": "C44", "title": "Releasing a view releases its own head", "statement": "Under every interleaving, dropping a view decrements the reference count of the head the view pinned.", "quantifier": "all interleavings at the granularity of atomic loads and CAS", "why_tests_cant": "needs a preemption between two loads", "anchors": ["include/framework/structure/MutableBuffer.h:release_head_reference"]}
{"id": "C45", "title": "A completed concurrent insert is not lost", "statement": "An insert that returned 1 is contained in the shard flushed from its buffer region, even if the flush ran concurrently.", "quantifier": "all interleavings", "why_tests_cant": "needs a preemption between claiming and writing a slot", "anchors": ["include/framework/structure/MutableBuffer.h:append", "include/framework/DynamicExtension.h:reconstruction", "include/framework/structure/BufferView.h:copy_to_buffer"]}
{"id": "C46", "title": "Concurrent insert fails only when the buffer is full", "statement": "append() returns 0 only if the buffer held at least hwm records at some moment during the call.", "quantifier": "all interleavings", "why_tests_cant": "needs CAS contention after the head has moved", "anchors": ["include/framework/structure/MutableBuffer.h:try_advance_tail"]}
{"id": "C47", "title": "Appends keep working past 2^31 records", "statement": "The slot written by the n-th append is n mod capacity, for every n.", "quantifier": "all n < 2^63", "why_tests_cant": "needs 2^31 appends", "anchors": ["include/framework/structure/MutableBuffer.h:append", "include/framework/structure/MutableBuffer.h:try_advance_tail"]}
{"id": "C48", "title": "A pinned epoch is not destroyed", "statement": "While a query or other job is running on an epoch, that epoch is not deleted, under every interleaving with epoch transitions.", "quantifier": "all interleavings", "why_tests_cant": "needs a preemption inside end_job", "anchors": ["include/framework/DynamicExtension.h:get_active_epoch", "include/framework/DynamicExtension.h:end_job", "include/framework/DynamicExtension.h:advance_epoch", "include/framework/DynamicExtension.h:retire_epoch"]}
{"id": "C49", "title": "At most one reconstruction is in flight", "statement": "At any moment at most one reconstruction is scheduled or running, so the assertion that no next epoch exists when one is created holds.", "quantifier": "all interleavings of inserters and the reconstruction thread", "why_tests_cant": "unbounded schedules", "anchors": ["include/framework/DynamicExtension.h:internal_append", "include/framework/DynamicExtension.h:create_new_epoch", "include/framework/DynamicExtension.h:reconstruction"]}
{"id": "C50", "title": "await_next_epoch returns", "statement": "await_next_epoch() returns once no epoch transition is pending.", "quantifier": "all interleavings of the waiter and the epoch transition", "why_tests_cant": "lost wake-up needs a preemption between test and wait", "anchors": ["include/framework/DynamicExtension.h:await_next_epoch", "include/framework/DynamicExtension.h:advance_epoch"]}
{"id": "C51", "title": "Queries see a stable snapshot", "statement": "Reconstructing and flushing the next version never changes the levels and shards visible through the version a query is running on.", "quantifier": "all structures, task lists, buffers, all three layouts", "why_tests_cant": "aliasing between versions for all shapes", "anchors": ["include/framework/structure/ExtensionStructure.h:copy", "include/framework/structure/InternalLevel.h:clone", "include/framework/scheduling/Epoch.h:clone", "include/framework/structure/ExtensionStructure.h:reconstruction"]}
{"id": "C52", "title": "FIFO scheduler dispatches in submission order", "statement": "Jobs are handed to worker threads in the order schedule_job was called, each exactly once.", "quantifier": "all submission/dispatch interleavings", "why_tests_cant": "unbounded schedules", "anchors": ["include/framework/scheduling/FIFOScheduler.h:schedule_job", "include/framework/scheduling/FIFOScheduler.h:schedule_next", "include/framework/scheduling/Task.h:operator<"]}
{"id": "C53", "title": "Tombstone proportion invariant", "statement": "validate_tombstone_proportion() returns true in every reachable state.", "quantifier": "all tombstone histories, layouts", "why_tests_cant": "violations need several merges", "anchors": ["include/framework/structure/ExtensionStructure.h:validate_tombstone_proportion", "include/framework/DynamicExtension.h:validate_tombstone_proportion"]}
{"id": "C54", "title": "Range samples do not contain erased records", "statement": "A record whose erase was acknowledged, and which was not inserted again, is not returned by a later IRS query.", "quantifier": "all histories, delete policies, random streams", "why_tests_cant": "all histories and random choices", "anchors": ["include/query/irs.h:combine", "include/framework/DynamicExtension.h:async_query"]}
{"id": "C55", "title": "Range samples from a static structure are in range", "statement": "An IRS query run on a single shard without a buffer returns exactly sample_size records of the shard, all with keys in range, and none if no key is in range.", "quantifier": "all shards, ranges, sample sizes, random streams", "why_tests_cant": "all random choices", "anchors": ["include/query/irs.h:distribute_query", "include/query/irs.h:local_query"]}
{"id": "C56", "title": "k-NN over Euclidean points is exact", "statement": "Over EuclidPoint records (in exact arithmetic), after any inserts a k-NN query returns the k points of smallest Euclidean distance among everything inserted; a stored query point is always in the answer.", "quantifier": "all dimensions, insert sequences, layouts, leaf sizes, random streams, query points, k >= 1", "why_tests_cant": "all point sets", "anchors": ["include/framework/interface/Record.h:EuclidPoint", "include/shard/VPTree.h:search", "include/query/knn.h:combine"]}
{"id": "C57", "title": "k-NN over cosine points returns the most similar records", "statement": "Over CosinePoint records a k-NN query returns the k records most similar to the query point; in particular a stored query point is its own nearest neighbour.", "quantifier": "all point sets and query points", "why_tests_cant": "universal over point sets", "anchors": ["include/framework/interface/Record.h:CosinePoint", "include/query/knn.h:local_query_buffer"]}
{"id": "C58", "title": "Ending a job unpins its own epoch", "statement": "Under every interleaving, end_job() decrements the job count of the epoch the job had pinned, and its assertions hold.", "quantifier": "all interleavings at the granularity of atomic loads and CAS", "why_tests_cant": "needs an epoch transition between two loads of end_job", "anchors": ["include/framework/DynamicExtension.h:end_job", "include/framework/DynamicExtension.h:advance_epoch"]}
{"id": "C59", "title": "Background reconstructions never trip an assertion", "statement": "No assertion of the reconstruction path (advance_head, create_new_epoch, retire_epoch, end_job) fails under any interleaving of inserts, queries and reconstructions.", "quantifier": "all interleavings", "why_tests_cant": "needs an inserter delayed across a whole flush", "anchors": ["include/framework/DynamicExtension.h:reconstruction", "include/framework/DynamicExtension.h:schedule_reconstruction", "include/framework/structure/MutableBuffer.h:advance_head"]}
{"id": "C60", "title": "A concurrent query sees every completed insert once", "statement": "A query that starts after insert() returned 1 sees the inserted record exactly once, in its version or in its buffer view, whatever flushes and inserts run meanwhile, and it sees only inserted records.", "quantifier": "all interleavings of inserters, flushes and queries", "why_tests_cant": "needs an append delayed between claiming and writing its slot", "anchors": ["include/framework/DynamicExtension.h:async_query", "include/framework/structure/MutableBuffer.h:append", "include/framework/structure/MutableBuffer.h:get_buffer_view", "include/framework/DynamicExtension.h:get_active_epoch"]}
{"id": "C61", "title": "An erase during a reconstruction survives it (tagging)", "statement": "With tagged deletes, a record that erase() reported as deleted while a reconstruction of the next version was running is not returned by queries after that version became active.", "quantifier": "all interleavings of one erase with the steps of a reconstruction", "why_tests_cant": "needs the erase to land between the merge of the shard and the installation of the new version", "anchors": ["include/framework/DynamicExtension.h:erase", "include/framework/DynamicExtension.h:reconstruction", "include/framework/structure/ExtensionStructure.h:tagged_delete", "include/framework/structure/ExtensionStructure.h:reconstruction"]}
{"id": "C62", "title": "Jobs accepted by the scheduler are run", "statement": "Every job passed to FIFOScheduler::schedule_job before shutdown() is called has been run once shutdown has completed and the scheduler's threads have ended.", "quantifier": "all interleavings of clients, scheduler thread, wake-up thread, workers and the destroying thread", "why_tests_cant": "needs a shutdown while jobs are still queued", "anchors": ["include/framework/scheduling/FIFOScheduler.h:schedule_job", "include/framework/scheduling/FIFOScheduler.h:shutdown", "include/framework/scheduling/FIFOScheduler.h:run"]}
{"id": "C63", "title": "Destroying the scheduler terminates", "statement": "~FIFOScheduler never blocks forever: no reachable state has the destroying thread waiting for threads that can make no step.", "quantifier": "all interleavings of scheduler thread, wake-up thread, workers and the destroying thread", "why_tests_cant": "the lost wake-up needs two preemptions around the test of the shutdown flag", "anchors": ["include/framework/scheduling/FIFOScheduler.h:run", "include/framework/scheduling/FIFOScheduler.h:shutdown", "include/framework/scheduling/FIFOScheduler.h:periodic_wakeup", "include/framework/scheduling/FIFOScheduler.h:~FIFOScheduler"]}
{"id": "C64", "title": "Range sampling is unbiased", "statement": "After inserts only, every record inserted into the query range is equally likely to be returned by an IRS query, whichever buffer or shard holds it: without rejection sampling the expected number of times a record is among n samples is n times its share of the in-range insertions; with rejection sampling (the default) a query for one sample returns each in-range record with probability proportional to its insertions, for every bound on the number of rounds, and in a query for several samples that returns m records each record occurs on average m times its share.", "quantifier": "all insert sequences, layouts, ranges, sample sizes; all random streams counted", "why_tests_cant": "a distribution over all random streams; a test sees some streams", "anchors": ["include/query/irs.h:distribute_query", "include/query/irs.h:local_query", "include/query/irs.h:local_query_buffer", "include/query/irs.h:repeat"]}
{"id": "C65", "title": "Point lookups over string keys find the record with that content", "statement": "Over FSTrie shards with string keys, a point lookup for a string returns exactly the inserted record whose key has that content, or nothing if there is none, whether the record is still in the buffer or in a shard.", "quantifier": "all histories, layouts, delete policies and query strings", "why_tests_cant": "needs all key sets, and pointers that differ though the strings are equal", "anchors": ["include/shard/FSTrie.h:point_lookup", "include/shard/FSTrie.h:FSTrie", "include/query/pointlookup.h:local_query", "include/query/pointlookup.h:local_query_buffer"]}
{"id": "C66", "title": "The trie of a shard is always built from distinct sorted keys", "statement": "Whatever is inserted and erased, every FSTrie shard hands its trie a non-empty strictly increasing list of keys, and a lookup never uses a trie that was not built.", "quantifier": "all histories, layouts and delete policies", "why_tests_cant": "needs cancellation patterns across flushes and merges", "anchors": ["include/shard/FSTrie.h:FSTrie", "include/shard/FSTrie.h:get_lower_bound"]}
{"id": "C67", "title": "A range query running beside flushes is exact on the levels", "statement": "A range query that pins its version and takes its buffer view while inserts and reconstructions run returns exactly the in-range records inserted below the tail of that view: every insert that returned 1 before the view was taken, none twice, whichever level, superseded version or ring slot holds them; and no reconstruction fails.", "quantifier": "all interleavings, layouts, scale factors, ranges and records", "why_tests_cant": "needs interleavings of clones, merges, flushes and head advances with every query position", "anchors": ["include/framework/DynamicExtension.h:async_query", "include/framework/DynamicExtension.h:reconstruction", "include/framework/DynamicExtension.h:create_new_epoch", "include/framework/structure/ExtensionStructure.h:reconstruction", "include/framework/structure/ExtensionStructure.h:flush_buffer", "include/query/rangequery.h:local_query"]}
{"id": "C68", "title": "create_static_structure beside inserts and flushes", "statement": "create_static_structure called while inserts and reconstructions run returns a sorted shard with exactly the records inserted below the tail of the buffer view it takes, whatever version it pinned, and reads no memory outside the ring.", "quantifier": "all interleavings, layouts, scale factors and records", "why_tests_cant": "needs a flush and a refill of the buffer between pinning the epoch and taking the view", "anchors": ["include/framework/DynamicExtension.h:create_static_structure", "include/framework/structure/BufferView.h:copy_to_buffer", "include/framework/structure/MutableBuffer.h:get_buffer_view"]}
{"id": "C69", "title": "Concurrent range queries with tombstone erases", "statement": "A range query that runs while inserts, tombstone erases and reconstructions run returns only in-range records, each at most as often as it was inserted below the tail of the query's buffer view and at least as often as it was inserted there minus the number of its erases there.", "quantifier": "all interleavings, leveling and tiering, scale factors, ranges and records", "why_tests_cant": "needs a stale tombstone in a claimed slot, and cancellations in every merge of every version", "anchors": ["include/framework/DynamicExtension.h:async_query", "include/framework/DynamicExtension.h:erase", "include/framework/DynamicExtension.h:reconstruction", "include/framework/structure/MutableBuffer.h:append", "include/query/rangequery.h:combine"]}
{"id": "C70", "title": "An insert never waits for another thread", "statement": "However the other threads (other inserts, queries, reconstructions, awaits) are stopped, an insert that runs alone, including the scheduling of a reconstruction when the low watermark is reached, takes at most 16 atomic steps and returns, unless the assert on the epoch's count in end_job fails (which C58 covers).", "quantifier": "all reachable states of all interleavings, every point inside an insert", "why_tests_cant": "needs every preemption point of every other thread", "anchors": ["include/framework/DynamicExtension.h:insert", "include/framework/DynamicExtension.h:internal_append", "include/framework/DynamicExtension.h:schedule_reconstruction", "include/framework/DynamicExtension.h:create_new_epoch", "include/framework/structure/MutableBuffer.h:append", "include/framework/structure/MutableBuffer.h:try_advance_tail"]}
{"id": "C71", "title": "A query never waits for a reconstruction", "statement": "However the other threads are stopped, a query running alone gets through pinning its epoch, taking its buffer view, dropping the view and releasing the epoch in a bounded number of steps: queries are not blocked by a reconstruction in progress.", "quantifier": "all reachable states of all interleavings, every point inside these calls", "why_tests_cant": "needs the reconstruction to be preempted between two particular stores", "anchors": ["include/framework/DynamicExtension.h:get_active_epoch", "include/framework/DynamicExtension.h:end_job", "include/framework/structure/MutableBuffer.h:get_head", "include/framework/structure/MutableBuffer.h:release_head_reference", "include/framework/DynamicExtension.h:advance_epoch", "include/framework/structure/MutableBuffer.h:advance_head"]}
{"id": "C72", "title": "A reconstruction finishes once its readers are gone", "statement": "A reconstruction running alone finishes, within one step per buffered record and a constant number more, exactly if no pin is counted on the previous epoch (until it has retired it), none on the superseded head (until it has advanced the head) and nobody holds the epoch lock; otherwise it never finishes while the others are stopped. Finishing, it clears the reconstruction flag, unless it had flushed an empty view (C59).", "quantifier": "all reachable states of all interleavings, every point inside a reconstruction", "why_tests_cant": "liveness: no test run shows that a loop ends from every state", "anchors": ["include/framework/DynamicExtension.h:reconstruction", "include/framework/DynamicExtension.h:advance_epoch", "include/framework/DynamicExtension.h:retire_epoch", "include/framework/structure/MutableBuffer.h:advance_head"]}
{"id": "C73", "title": "get_record_count is linearizable", "statement": "In every insert-only execution with any number of threads and reconstructions, a call of get_record_count returns the number of inserts that had claimed their buffer slot at one moment between its call and its return: at least as many as had returned before the call, at most as many as have begun by its return; no record is counted twice or missed while a flush moves it from the buffer to the levels.", "quantifier": "all interleavings, layouts, scale factors, shard types", "why_tests_cant": "needs a flush between pinning the epoch and taking the view, with every position of the inserters", "anchors": ["include/framework/DynamicExtension.h:get_record_count", "include/framework/structure/MutableBuffer.h:get_buffer_view", "include/framework/structure/ExtensionStructure.h:get_record_count", "include/framework/DynamicExtension.h:reconstruction"]}
{"id": "C74", "title": "Successive queries never lose records", "statement": "Without erases, a range query returns at least every in-range record whose insert returned before the query began (read your writes), and at least what an earlier completed query by any thread returned (monotone reads).", "quantifier": "all interleavings, layouts, scale factors, ranges and pairs of queries", "why_tests_cant": "needs a flush of an unwritten slot between the two queries", "anchors": ["include/framework/DynamicExtension.h:async_query", "include/framework/DynamicExtension.h:reconstruction", "include/framework/structure/MutableBuffer.h:append", "include/framework/structure/MutableBuffer.h:get_buffer_view"]}
{"id": "C75", "title": "A point lookup running beside flushes is exact", "statement": "A point lookup that runs while inserts and reconstructions run returns a record exactly if one with the key was inserted below the tail of the buffer view it takes; if keys are distinct, it returns that record.", "quantifier": "all interleavings, layouts, scale factors and keys", "why_tests_cant": "needs interleavings of flushes and head advances with every lookup position", "anchors": ["include/query/pointlookup.h:local_query", "include/query/pointlookup.h:local_query_buffer", "include/framework/DynamicExtension.h:async_query"]}
{"id": "C76", "title": "A range count running beside flushes is exact", "statement": "A range count that runs while inserts and reconstructions run returns the number of in-range records inserted below the tail of the buffer view it takes.", "quantifier": "all interleavings, layouts, scale factors and ranges", "why_tests_cant": "needs interleavings of flushes and head advances with every query position", "anchors": ["include/query/rangecount.h:local_query", "include/query/rangecount.h:combine", "include/framework/DynamicExtension.h:async_query"]}
{"id": "C77", "title": "A k-NN query running beside flushes is exact", "statement": "A k-NN query that runs while inserts and reconstructions run returns the k nearest of the records inserted below the tail of the buffer view it takes.", "quantifier": "all interleavings, layouts, scale factors, query points, metrics, random pivots, k >= 1", "why_tests_cant": "needs interleavings of flushes and head advances with every query position", "anchors": ["include/query/knn.h:local_query", "include/query/knn.h:combine", "include/shard/VPTree.h:search", "include/framework/DynamicExtension.h:async_query"]}
{"id": "C78", "title": "Queries are linearizable", "statement": "Without erases, a query that runs beside inserts and reconstructions returns what it would return on exactly the records whose inserts had taken effect (claimed their buffer slot) at one moment between its call and its return; this holds for range queries, range counts, point lookups and k-NN queries.", "quantifier": "all interleavings, layouts, scale factors, query parameters", "why_tests_cant": "no finite set of schedules shows that a suitable moment exists in every one", "anchors": ["include/framework/DynamicExtension.h:async_query", "include/framework/DynamicExtension.h:internal_append", "include/framework/DynamicExtension.h:reconstruction", "include/framework/structure/MutableBuffer.h:append", "include/framework/structure/MutableBuffer.h:get_buffer_view", "include/query/rangequery.h:combine", "include/query/rangecount.h:combine", "include/query/pointlookup.h:combine", "include/query/knn.h:combine"]}
{"id": "C79", "title": "Versions are freed exactly once and never pile up", "statement": "Whatever was executed before, destroying the index when no operation is in progress deletes every version (epoch with its structure) that is still allocated and none twice; a version deleted while the index runs was allocated, is used by no query, and is never deleted again; and at no moment of any execution are more than three versions allocated.", "quantifier": "all interleavings of inserts, queries and reconstructions of any length", "why_tests_cant": "leaks and double frees depend on where every thread stood at each of unboundedly many transitions", "anchors": ["include/framework/DynamicExtension.h:~DynamicExtension", "include/framework/scheduling/Epoch.h:~Epoch", "include/framework/DynamicExtension.h:create_new_epoch", "include/framework/DynamicExtension.h:advance_epoch", "include/framework/DynamicExtension.h:retire_epoch"]}
{"id": "C80", "title": "Weighted sampling is fair", "statement": "A weighted set sampling query for n samples returns each inserted record on average n times its weight divided by the total weight, whichever shard or buffer holds it; in particular records of equal weight are equally likely.", "quantifier": "all insert histories, layouts, weights, sample sizes and random streams (counted)", "why_tests_cant": "a distribution over all streams; tests can only estimate it for a few indexes", "anchors": ["include/query/wss.h:distribute_query", "include/query/wss.h:local_query", "include/query/wss.h:local_query_buffer", "include/query/wss.h:local_preproc_buffer", "include/shard/Alias.h:build_alias_structure"]}
{"id": "C81", "title": "Inserts are lock-free", "statement": "However many threads insert at the same time, the steps an insert takes are bounded by a constant plus a constant for every step by which another thread makes progress (claims a slot, begins or ends a call, or performs an epoch transition) in the meantime; k inserts on their own all return within k(16+9k) steps in every interleaving.", "quantifier": "all interleavings, any number of threads, any reachable state", "why_tests_cant": "retry loops under contention; no stress test bounds the number of retries", "anchors": ["include/framework/DynamicExtension.h:internal_append", "include/framework/structure/MutableBuffer.h:append", "include/framework/structure/MutableBuffer.h:try_advance_tail", "include/framework/DynamicExtension.h:get_active_epoch", "include/framework/DynamicExtension.h:end_job", "include/framework/DynamicExtension.h:create_new_epoch"]}
{"id": "C82", "title": "Scheduler statistics are exact", "statement": "Once no job is being logged, the scheduler statistics report for queries and for reconstructions the number of jobs run, the total of their running times, and the largest running time.", "quantifier": "all interleavings of any number of worker threads", "why_tests_cant": "a lost update needs a particular interleaving of loads and stores", "anchors": ["include/framework/scheduling/statistics.h:log_time_data", "include/framework/scheduling/Task.h:operator()"]}
{"id": "C83", "title": "Deeper levels hold older data", "statement": "With tombstone deletes the history always splits into consecutive intervals, a whole number of buffer-fulls each, followed by the operations still buffered; listed from the deepest level up (each level in shard order) the shards hold exactly the net effect of these intervals one by one, so a record or tombstone in a shallower level or later shard is always newer than anything in a deeper level or earlier shard.", "quantifier": "all histories, watermarks, scale factors, keys; leveling and tiering, and BSM when no flushed buffer cancels out (C03)", "why_tests_cant": "an invariant of unboundedly many reconstructions", "anchors": ["include/framework/structure/ExtensionStructure.h:reconstruction", "include/framework/structure/ExtensionStructure.h:flush_buffer_into_l0", "include/framework/structure/ExtensionStructure.h:get_reconstruction_tasks", "include/framework/structure/InternalLevel.h:append_level", "include/framework/structure/InternalLevel.h:reconstruction", "include/framework/DynamicExtension.h:internal_append"]}
{"id": "C84", "title": "The mutable buffer behaves as a bounded queue with tombstone lookup and truncation", "statement": "Used on its own, MutableBuffer is a bounded queue: an append is accepted exactly when fewer records than the high watermark are buffered, get_record_count, is_full, is_at_low_watermark and get_available_capacity are those of the queue, check_tombstone(r) is true exactly if a tombstone of r is buffered whatever the filter's false positives, and truncate() empties the buffer, which can then be used again.", "quantifier": "all histories of appends, head advances and truncations, all watermarks, any filter without false negatives", "why_tests_cant": "ring positions and filter collisions depend on the whole history; the unit test truncates a buffer whose head never moved", "anchors": ["include/framework/structure/MutableBuffer.h:append", "include/framework/structure/MutableBuffer.h:truncate", "include/framework/structure/MutableBuffer.h:check_tombstone", "include/framework/structure/MutableBuffer.h:get_record_count", "include/framework/structure/MutableBuffer.h:is_full", "include/framework/structure/MutableBuffer.h:get_available_capacity", "include/framework/structure/BufferView.h:check_tombstone"]}
{"id": "C85", "title": "The index of a PGM or TrieSpline shard describes the stored records", "statement": "However a shard came about (flushed, merged from other shards, records tagged in between), PGM and TrieSpline store the same records as the shared merge routines, their external index is given exactly the keys of the stored records in sorted order, m_min_key and m_max_key of a TrieSpline are its least and greatest stored key, and the key range announced to the spline builder is the range of the keys it then gets.", "quantifier": "all buffers, all trees of merges and tags, all tie-breaking of the merge queue", "why_tests_cant": "the index is only consulted above 50 records and a wrong range shows up as a wrong search bound for some keys", "anchors": ["include/shard/PGM.h:PGM", "include/shard/TrieSpline.h:TrieSpline"]}
{"id": "C86", "title": "A level knows its tombstones", "statement": "InternalLevel::check_tombstone(stop, r) is true exactly if one of the level's shards from number stop on holds a tombstone of r, whichever shard class is used and whatever the shards' Bloom filters answer for records without tombstones.", "quantifier": "all levels, shard contents, records, filters without false negatives", "why_tests_cant": "false positives of a filter and the order of equal records within a shard cannot be enumerated; no test calls the function on shards holding both", "anchors": ["include/framework/structure/InternalLevel.h:check_tombstone", "include/shard/ISAMTree.h:point_lookup", "include/shard/PGM.h:point_lookup", "include/shard/TrieSpline.h:point_lookup", "include/shard/Alias.h:point_lookup"]}
{"id": "C87", "title": "k-NN respects tombstones", "statement": "With tombstone deletes, a k-NN query returns the k nearest of the records that are currently in the index, that is, inserted and not erased since; never an erased record or a tombstone.", "quantifier": "all histories of inserts and erases, layouts, sizes, distance functions, query points and k", "why_tests_cant": "the answer depends on where each record and tombstone ended up; the unit tests run k-NN only on insert-only indexes", "anchors": ["include/query/knn.h:local_query", "include/query/knn.h:local_query_buffer", "include/query/knn.h:combine", "include/shard/VPTree.h:VPTree", "include/framework/DynamicExtension.h:erase"]}
{"id": "C88", "title": "Tombstone compaction restores the tombstone proportion", "statement": "Run on any reachable index, enforce_delete_invariant (the tasks of get_compaction_tasks, repeated until there are none) terminates without undefined behaviour, and afterwards validate_tombstone_proportion holds.", "quantifier": "all histories, layouts, watermarks and scale factors", "why_tests_cant": "violations need long histories of particular shape; nothing in the repository runs the function", "anchors": ["include/framework/DynamicExtension.h:enforce_delete_invariant", "include/framework/structure/ExtensionStructure.h:get_compaction_tasks", "include/framework/structure/ExtensionStructure.h:validate_tombstone_proportion", "include/framework/structure/ExtensionStructure.h:reconstruction"]}
{"id": "C89", "title": "Memory usage accounts for records and index nodes", "statement": "get_memory_usage() is the number of bytes held for records and index information, as documented: the ring of the buffer, the records of every shard of the current version and every shard's index nodes, each counted once.", "quantifier": "all histories, layouts, delete policies, watermarks, record sizes and fanouts", "why_tests_cant": "depends on the number and sizes of the shards a history leaves behind and of their trees; no test checks the value", "anchors": ["include/framework/DynamicExtension.h:get_memory_usage", "include/framework/structure/ExtensionStructure.h:get_memory_usage", "include/framework/structure/InternalLevel.h:get_memory_usage", "include/framework/structure/MutableBuffer.h:get_memory_usage", "include/shard/ISAMTree.h:get_memory_usage", "include/shard/Alias.h:get_memory_usage", "include/shard/VPTree.h:get_memory_usage"]}
{"id": "C90", "title": "Queries beside erases are linearizable", "statement": "A query that runs beside inserts, tombstone erases and reconstructions returns exactly what it should return for the inserts and erases that had taken effect at one moment between its call and its return.", "quantifier": "all interleavings, any number of threads, histories of inserts and erases, range queries, range counts, point lookups and k-NN queries", "why_tests_cant": "depends on the interleaving and on where each record and its tombstone are when the query takes its view", "anchors": ["include/framework/DynamicExtension.h:erase", "include/framework/DynamicExtension.h:insert", "include/framework/DynamicExtension.h:async_query", "include/framework/DynamicExtension.h:reconstruction", "include/framework/DynamicExtension.h:get_active_epoch", "include/framework/structure/MutableBuffer.h:get_buffer_view"]}
{"id": "C91", "title": "One thread on a serial scheduler sees a plain sequential index", "statement": "With the SerialScheduler and one client thread, any sequence of inserts, tombstone erases, queries and await_next_epoch calls returns what a plain sequential index (buffer, levels, no epochs) would return, fails only where that would fail, and never blocks or spins; when a call returns no reconstruction is pending, no reference is held, and only the current and the previous epoch are allocated.", "quantifier": "all histories, layouts, watermarks, scale factors, shard classes and queries", "why_tests_cant": "the epoch, reference-count and flag machinery is exercised by every flush in a long history; tests see only final results", "anchors": ["include/framework/scheduling/SerialScheduler.h:schedule_job", "include/framework/DynamicExtension.h:schedule_reconstruction", "include/framework/DynamicExtension.h:create_new_epoch", "include/framework/DynamicExtension.h:advance_epoch", "include/framework/DynamicExtension.h:async_query", "include/framework/DynamicExtension.h:await_next_epoch", "include/framework/DynamicExtension.h:internal_append", "include/framework/structure/MutableBuffer.h:advance_head"]}
{"id": "C92", "title": "Samples drawn beside inserts come from one moment", "statement": "A range-sampling or weighted-sampling query that runs beside inserts and reconstructions returns only records whose inserts had taken effect at one moment between its call and its return (in range, for range sampling), and as many as requested if there are any and no draw can be rejected.", "quantifier": "all interleavings, numbers of threads, random streams, ranges, sample sizes", "why_tests_cant": "depends on interleaving and on the random stream at the same time", "anchors": ["include/query/irs.h:local_query", "include/query/irs.h:distribute_query", "include/query/irs.h:local_query_buffer", "include/query/wss.h:local_query", "include/framework/DynamicExtension.h:async_query", "include/framework/DynamicExtension.h:reconstruction", "include/framework/structure/MutableBuffer.h:get_buffer_view"]}
{"id": "C93", "title": "An index whose calls have all returned is never stuck", "statement": "After any concurrent history, once every call has returned and no reconstruction is running (one may be queued), the index accepts further inserts: any client can insert any sequence of records, each is accepted at the next position of the buffer, possibly after one refusal and one reconstruction. No epoch and no buffer head is left counted as used, so the reconstruction that is needed to empty a full buffer does not wait. If the index refuses inserts for ever, then some call never returns.", "quantifier": "for all thread counts, all interleavings of inserts, queries, reconstructions and waits, all watermarks, all further sequences of inserts", "why_tests_cant": "A leaked pin shows only as an index that refuses every insert some time later; whether some history leaks one although all its calls return cannot be established by running histories.", "anchors": ["include/framework/DynamicExtension.h:431-555", "include/framework/DynamicExtension.h:557-607", "include/framework/DynamicExtension.h:711-793", "include/framework/structure/MutableBuffer.h:43-54", "include/framework/structure/MutableBuffer.h:61-89", "include/framework/structure/MutableBuffer.h:145-196", "include/framework/structure/MutableBuffer.h:233-279"]}
{"id": "C94", "title": "With one worker thread every reference is counted where it was taken", "statement": "If the scheduler has a single worker thread, so that queries and reconstructions run one after the other beside any number of inserting and waiting clients, then at all times the reference counts of the current epoch and the current buffer head are the numbers of users they have, the previous epoch and the old head have none, and every release decrements the count it has incremented. Consequently no call of a query and no insert waits for another thread, a reconstruction waits only for the lock of the condition variable, and the only assertion that can fail is the one on flushing an empty buffer.", "quantifier": "for all numbers of clients, all interleavings of inserts, waits, queries and reconstructions with one worker, all watermarks", "why_tests_cant": "That the counts are right in every interleaving is a statement about all schedules; a test run shows one. With more workers it is false (C44, C58), so passing tests on one configuration say nothing about another.", "anchors": ["include/framework/DynamicExtension.h:431-461", "include/framework/DynamicExtension.h:463-555", "include/framework/DynamicExtension.h:557-680", "include/framework/DynamicExtension.h:755-793", "include/framework/structure/MutableBuffer.h:124-196", "include/framework/structure/MutableBuffer.h:254-279", "include/framework/scheduling/FIFOScheduler.h:38-45", "include/framework/scheduling/FIFOScheduler.h:107-125"]}
{"id": "C95", "title": "Buffer views keep reading what they were created on", "statement": "However views of a buffer are created, moved and destroyed, each live view reads, by get and by copy_to_buffer, exactly the records appended between its head and its tail, whatever is appended and however often the head is advanced meanwhile; every call ends; advance_head is refused exactly while a view from before the present head is live; each live view is counted once, at the head it was taken at; moving a view moves its records and its reference; get_available_capacity tells the slots that neither the buffer nor a view still needs.", "quantifier": "all sequences of appends, views, moves, destructions, head advances, tags and watermark changes, all capacities and watermarks the constructor accepts", "why_tests_cant": "the reference counts and the ring arithmetic depend on the whole history of overlapping views; the tests hold one view at a time", "anchors": ["include/framework/structure/MutableBuffer.h:43-54", "include/framework/structure/MutableBuffer.h:61-89", "include/framework/structure/MutableBuffer.h:124-196", "include/framework/structure/MutableBuffer.h:198-279", "include/framework/structure/BufferView.h:27-62", "include/framework/structure/BufferView.h:64-133"]}
{"id": "C96", "title": "The default configuration behaves as a sequential index with tagging", "statement": "In the default configuration (tagging deletes, SerialScheduler) any sequence of inserts, erases, queries and await_next_epoch calls of one client returns what a plain sequential index (buffer, levels, delete tags, no epochs) would return, fails only where that would fail, and never blocks or spins. Every view and every epoch an erase takes is given back whether the record is found in the levels, in the buffer or not at all, so the next flush is not held up, and a reused slot of the buffer does not inherit an old delete tag. For leveling and tiering: inserts return 1, the first erase of a record returns 1 exactly if it was inserted, and a query returns only inserted records and never loses or repeats one that was not erased.", "quantifier": "all histories, layouts, watermarks, scale factors, shard classes and queries", "why_tests_cant": "an erase holds a view and an epoch while it writes into shards shared between epochs; a forgotten release or a stale tag shows only several flushes later", "anchors": ["include/framework/scheduling/SerialScheduler.h:schedule_job", "include/framework/DynamicExtension.h:27-30", "include/framework/DynamicExtension.h:erase", "include/framework/DynamicExtension.h:get_active_epoch", "include/framework/DynamicExtension.h:end_job", "include/framework/DynamicExtension.h:schedule_reconstruction", "include/framework/structure/ExtensionStructure.h:tagged_delete", "include/framework/structure/BufferView.h:delete_record", "include/framework/structure/MutableBuffer.h:append", "include/framework/structure/MutableBuffer.h:get_buffer_view"]}
{"id": "C97", "title": "Points with floating-point coordinates compare and hash consistently", "statement": "CosinePoint and EuclidPoint with double coordinates are ordered by operator< as std::sort requires, operator== agrees with that order, equal points have equal hash codes, and point_lookup of a VPTree with a hash map finds the first stored record equal to the one given exactly if there is one.", "quantifier": "all dimensions, all doubles (infinities, subnormals, zeros of both signs, NaN), all shard contents, all hash functions of the bytes", "why_tests_cant": "2^64 values per coordinate; the special values and the hash function decide", "anchors": ["include/framework/interface/Record.h:147-172", "include/framework/interface/Record.h:189-211", "include/framework/interface/Record.h:225-229", "include/shard/VPTree.h:130-138", "include/shard/VPTree.h:222-238"]}
{"id": "C98", "title": "k-NN in floating-point arithmetic is right up to rounding", "statement": "With the rounding of floating-point arithmetic, in the distances and in the pruning tests of the tree search, a k-NN query returns k stored records, none of which is farther than a record left out by more than a small multiple of the rounding error, which does not grow with the number of records, the depth of the trees or the number of shards. For EuclidPoint<double, D> after any inserts the slack is about (5D + 22) rounding units of the largest distance. (The answer is not exactly the nearest, not even by the computed distances.)", "quantifier": "all insert sequences, layouts, dimensions, leaf sizes, random streams, query points, k >= 1, all rounding functions of relative error u", "why_tests_cant": "whether rounding can make a pruning test skip a much closer record depends on the values; a test would need the one input", "anchors": ["include/shard/VPTree.h:internal_search", "include/shard/VPTree.h:build_subtree", "include/query/knn.h:local_query", "include/query/knn.h:combine", "include/framework/interface/Record.h:214-221"]}
{"id": "C99", "title": "k-NN over unsigned integer coordinates is right", "statement": "Over EuclidPoint<uint64_t, D> (the type used by the tests and benchmarks) a k-NN query returns the nearest records up to rounding.", "quantifier": "all coordinates of 64 bits, insert sequences, layouts, query points", "why_tests_cant": "the arithmetic wraps only for coordinates more than 2^32 apart; the tests use small ones", "anchors": ["include/framework/interface/Record.h:214-221", "include/shard/VPTree.h:internal_search", "include/query/knn.h:local_query_buffer"]}
{"id": "C100", "title": "A user's own shard and query classes are answered as on one collection", "statement": "If a user's shard class keeps the records it is given (up to tagged records and cancelled tombstone pairs) and a user's query class solves a decomposable problem (partial answers per shard and for the buffer combine to an answer for the union), then a query through the framework has defined behaviour and returns an answer for everything stored in the index, each entry counted once; without erases that is exactly the inserted records. Early abort, redistribution, randomness and repeated rounds are covered.", "quantifier": "all shard classes and query classes meeting the contract, all histories, layouts, delete policies, watermarks and scale factors", "why_tests_cant": "the claim is about classes not written yet; a test fixes one class and one history", "anchors": ["include/framework/DynamicExtension.h:async_query", "include/framework/interface/Query.h:33-118", "include/framework/structure/ExtensionStructure.h:522-533", "include/framework/structure/InternalLevel.h:162-174"]}
{"id": "C101", "title": "Queries of a user's own classes are linearizable", "statement": "A query of a user's own shard and query classes (meeting the contract of C100) that runs beside inserts, tombstone erases and reconstructions has defined behaviour and returns an answer for what had been inserted (and not erased) at one moment between its call and its return.", "quantifier": "all interleavings of any number of threads, all shard and query classes meeting the contract, layouts, watermarks, scale factors", "why_tests_cant": "combines all interleavings with all classes, including classes not written yet", "anchors": ["include/framework/DynamicExtension.h:async_query", "include/framework/DynamicExtension.h:query", "include/framework/DynamicExtension.h:reconstruction", "include/framework/DynamicExtension.h:get_active_epoch", "include/framework/structure/MutableBuffer.h:append", "include/framework/structure/MutableBuffer.h:get_buffer_view"]}
{"id": "C102", "title": "String tries used on their own hold and find exactly what went into them", "statement": "However FSTrie or LoudsPatricia shards are made from buffer views and merged with each other, without an index, the result has exactly the records that went in and were not erased, once each and in key order; point_lookup returns the record with the given key if there is one and nullptr otherwise; and no construction or lookup is undefined.", "quantifier": "all buffer views, all trees of constructions and merges of shards, all search keys, any trie that is exact on strictly increasing key lists", "why_tests_cant": "tests/louds_tests.cpp and tests/fst_tests.cpp build one shard and merge two of fixed word lists; they never merge a merged shard, erase a key within a buffer, cancel a whole shard or use an empty string", "anchors": ["include/shard/LoudsPatricia.h:36-162", "include/shard/FSTrie.h:37-165", "include/util/SortedMerge.h:56-80"]}
{"id": "C103", "title": "Calls see the versions of the index in order", "statement": "A call (get_height, a query, any function of the interface that pins an epoch) that begins after another call has pinned its version, or after a reconstruction has published a version, works on that version or a newer one: get_height never goes back, and whatever had been flushed into the levels of the older version has been flushed into those of the newer one.", "quantifier": "all interleavings of any number of threads, all layouts, shard classes, inserts and tombstone erases", "why_tests_cant": "get_active_epoch falls back to the previous epoch while the epochs are exchanged; a call returning an outdated version needs a thread suspended between two particular loads", "anchors": ["include/framework/DynamicExtension.h:431-461", "include/framework/DynamicExtension.h:463-492", "include/framework/DynamicExtension.h:498-514", "include/framework/DynamicExtension.h:516-555", "include/framework/DynamicExtension.h:250-256", "include/framework/structure/ExtensionStructure.h:64-75"]}
{"id": "C104", "title": "Versions keep the layout's limits beside concurrent operations", "statement": "Whatever inserts and erases run concurrently, every version of the structure that a query (or get_height) works on obeys the limits of its layout: tiering levels hold 1 to scale_factor shards and at most hwm * scale_factor^(i+1) records, leveling levels one shard, BSM level i+1 at most 2^i buffers; and get_height() is logarithmic in the number of records flushed into that version.", "quantifier": "all layouts, all shard classes that lose records only in pairs, all numbers of threads, all interleavings, including flushes of slots that have been claimed but not yet written", "why_tests_cant": "the sizes depend on how much of the buffer each flush finds and on which records cancel; interleavings and histories are unbounded", "anchors": ["include/framework/structure/ExtensionStructure.h:get_reconstruction_tasks", "include/framework/structure/ExtensionStructure.h:reconstruction", "include/framework/structure/ExtensionStructure.h:flush_buffer_into_l0", "include/framework/DynamicExtension.h:get_height", "include/framework/DynamicExtension.h:reconstruction"]}
{"id": "C105", "title": "A record read from the buffer is one that was appended, never a mixture", "statement": "What a query or a flush reads from a slot of the buffer while other threads append is a record given to insert or erase, with its own tombstone flag, never words of one record together with words of another or a partly written one; and no slot is written while it is read, nor by two appends at once.", "quantifier": "all interleavings of word-sized loads and stores of any number of threads, all orders of the words, all record sizes and watermarks", "why_tests_cant": "a mixture needs a reader suspended between two loads of one slot while an append stores into it; the tests never look at a record that is being written", "anchors": ["include/framework/structure/MutableBuffer.h:61-89", "include/framework/structure/BufferView.h:115-133", "include/framework/interface/Record.h:67-102", "include/framework/DynamicExtension.h:711-722", "include/framework/structure/ExtensionStructure.h:flush_buffer_into_l0"]}
{"id": "C106", "title": "Inserting costs a logarithmic number of record copies on average", "statement": "Over any history, the records copied by all flushes and reconstructions together are at most height times the records flushed under tiering, and at most ((2*scale_factor*(height-1)+1)*lwm + hwm*scale_factor) per flush under leveling with scale_factor >= 2; under BSM, for insert-only histories, at most height times the records flushed. With the bounds on the height this is logarithmic per record; single flushes may copy everything.", "quantifier": "all histories of inserts and erases (insert-only under BSM), both delete policies, all watermarks and scale factors (>= 2 for the logarithmic bounds), all shard classes that lose records only in pairs", "why_tests_cant": "an average over unbounded histories; a benchmark measures a few and a test sees only one flush being expensive", "anchors": ["include/framework/structure/ExtensionStructure.h:get_reconstruction_tasks", "include/framework/structure/ExtensionStructure.h:reconstruction", "include/framework/structure/ExtensionStructure.h:flush_buffer_into_l0", "include/framework/structure/InternalLevel.h:reconstruct", "include/framework/structure/InternalLevel.h:append_buffer"]}
{"id": "C107", "title": "Reconstructions are spread over the configured cores", "statement": "With a FIFOScheduler every reconstruction pins its thread to one core numbered below twice thread_cnt, for every thread_cnt the constructor accepts, and any thread_cnt consecutive reconstructions are pinned to different cores.", "quantifier": "all thread counts and all numbers of reconstructions in the life of an index", "why_tests_cant": "the counter is a 32-bit int that wraps after four billion reconstructions; the tests use one thread count and a few flushes", "anchors": ["include/framework/DynamicExtension.h:725-749", "include/framework/DynamicExtension.h:560", "include/framework/DynamicExtension.h:81-87", "include/framework/scheduling/FIFOScheduler.h:38-46"]}
{"id": "C108", "title": "A search in a shard reads a logarithmic number of nodes or records", "statement": "get_lower_bound and get_upper_bound of an ISAM tree with n records visit at most log_F(n/LF)+1 nodes (F the fanout, LF the records of a leaf), compare with fewer than F keys in each and read at most one leaf, however often the key occurs; get_lower_bound of Alias reads at most log2(n-1)+1 records, that of PGM and TrieSpline at most log2(n)+257 if the index is valid; a point lookup reads besides only the records with the same key that precede it and two more.", "quantifier": "all non-empty shards, all keys, all multiplicities of a key, all fanouts", "why_tests_cant": "a cost bound over all shard contents; a wrong separator or a scan that starts too early still gives right answers, so tests pass", "anchors": ["include/shard/ISAMTree.h:127-171", "include/shard/ISAMTree.h:178-239", "include/shard/PGM.h:234-287", "include/shard/TrieSpline.h:277-327", "include/shard/Alias.h:165-180", "include/shard/ISAMTree.h:96-114"]}
{"id": "C109", "title": "A query consults logarithmically many shards", "statement": "The number of shards a query consults is at most scale_factor*(log_sf(flushes)+1) under tiering, max(2, log_sf(lwm*flushes/hwm)+1) under leveling and 2*(log2(flushes)+2) under BSM; in every version pinned beside concurrent inserts, erases and reconstructions at most scale_factor shards per level (one under leveling) and the heights are logarithmic in the slots flushed; so the searches of one key in all ISAM tree shards visit at most shards*(log_F(N/LF)+1) nodes and read at most shards*LF records.", "quantifier": "all histories, watermarks and scale factors >= 2, both delete policies, all executions of any number of threads", "why_tests_cant": "tests check the answers of a query, not how many shards it looked at, and only for a few sizes", "anchors": ["include/framework/structure/ExtensionStructure.h:get_local_queries", "include/framework/structure/InternalLevel.h:append_buffer", "include/framework/structure/InternalLevel.h:append_level", "include/framework/structure/ExtensionStructure.h:flush_buffer_into_l0", "include/framework/structure/ExtensionStructure.h:reconstruction", "include/framework/DynamicExtension.h:get_height"]}
{"id": "C110", "title": "A VPTree is balanced and cheap to build whatever the points", "statement": "The tree of n points has at most log2(n/(LEAFSZ+1))+1 levels (rounded up), for all points (equal ones included) and all random numbers; building it computes at most n distances per level and selects the medians with quasi-linear work and logarithmically nested calls; a point lookup without hash map computes one distance per level and scans one leaf; a k-NN search meets every record at most once.", "quantifier": "all sets of points with all multiplicities, all distance functions, leaf sizes and random numbers", "why_tests_cant": "work on adversarial inputs: the answers are right in any case, and tests use few points, mostly different", "anchors": ["include/shard/VPTree.h:240-296", "include/shard/VPTree.h:298-331", "include/shard/VPTree.h:139-157", "include/shard/VPTree.h:339-392"]}
{"id": "C111", "title": "An index of tries is a set of strings under tagging erases", "statement": "With FSTrie shards and the tagging delete policy, after any sequence of insert and erase calls on strings a point lookup through the inserted pointer returns the record of the string if it is in the set and nothing otherwise, and an erase of a string in the set returns 1.", "quantifier": "all histories of inserts and erases, all layouts, watermarks, scale factors and query strings", "why_tests_cant": "the tests of FSTrie use insert-only shards; which records of a shard are erased before it is merged decides whether the merged shard has a trie at all", "anchors": ["include/shard/FSTrie.h:37-141", "include/shard/FSTrie.h:point_lookup", "include/framework/DynamicExtension.h:erase", "include/framework/structure/InternalLevel.h:delete_record", "include/query/pointlookup.h:local_query", "include/query/pointlookup.h:local_query_buffer"]}
{"id": "C112", "title": "Distances of points with integer coordinates are right for every integer type", "statement": "For EuclidPoint<V, D> with any integer type V calc_distance is defined for all points and is their distance up to rounding, so a k-NN query returns the nearest records up to rounding; the sums of CosinePoint<V, D> are defined as well.", "quantifier": "all integer types of 8 to 64 bits, signed or not, all coordinates, dimensions, insert sequences, layouts and query points", "why_tests_cant": "the products overflow only for coordinates far enough apart; the tests use small uint64_t coordinates, for which nothing is undefined", "anchors": ["include/framework/interface/Record.h:214-221", "include/framework/interface/Record.h:173-186", "include/shard/VPTree.h:internal_search", "include/query/knn.h:local_query_buffer"]}
{"id": "C113", "title": "A list of reconstruction tasks counts its records", "statement": "After any calls on a ReconstructionVector get_total_reccnt is the number of records of the tasks in it (modulo 2^64); remove_reconstruction(i) takes out task i and keeps the order of the others; remove_smallest_reconstruction takes out the first task with the fewest records.", "quantifier": "all sequences of calls and all tasks", "why_tests_cant": "the total is maintained by four functions; which of them forgot it shows only for some sequences of calls, and nothing in the tests calls this class directly", "anchors": ["include/util/types.h:80-141"]}
{"id": "C114", "title": "Cursors over sorted arrays merge them", "statement": "get_next returns the first of the cursors whose next record is least, or nullptr exactly if no cursor has a record left; advance_cursor returns whether there is another record; get_next(cursors, current) returns the cursor that get_next will return once current has been advanced; reading with the two until nullptr gives all records of sorted arrays once each and in order.", "quantifier": "all numbers of cursors, all sorted arrays (empty ones and null cursors included)", "why_tests_cant": "all inputs; ties, exhausted and null cursors and the look-ahead interact", "anchors": ["include/util/Cursor.h:24-93"]}
{"id": "C115", "title": "Range samples are independent", "statement": "After inserts only, an IRS query returns independent samples: the sequence of the samples of one query is distributed like independent uniform draws from the records inserted into the range, whichever buffer or shards hold them. In particular the samples do not come spread over the shards more evenly or less evenly than chance has it, and a statistic of a sample has the distribution a user computes for independent draws.", "quantifier": "all insert sequences, layouts, ranges, sample sizes, with and without rejection, any number of rounds; all random streams counted", "why_tests_cant": "a joint distribution over all random streams; tests see some streams and cannot tell dependence of the draws from chance", "anchors": ["include/query/irs.h:distribute_query", "include/query/irs.h:local_query", "include/query/irs.h:local_query_buffer", "include/query/irs.h:combine", "include/query/irs.h:repeat"]}
{"id": "C116", "title": "Level capacities are those of the layout", "statement": "Level i of an index holds buffer size times scale factor to the power i+1 records: although the capacity is computed with pow in double arithmetic and converted back to an integer, no rounding changes which levels are reconstructed, where a flush goes or when the tombstone proportion is violated, and the conversion is always defined.", "quantifier": "all histories, layouts, delete policies, buffer sizes and scale factors", "why_tests_cant": "the deep levels on which rounding could tell are out of reach of any test that runs, and the result of an undefined conversion depends on the machine", "anchors": ["include/framework/structure/ExtensionStructure.h:calc_level_record_capacity", "include/framework/structure/ExtensionStructure.h:grow", "include/framework/structure/ExtensionStructure.h:reconstruction", "include/framework/structure/ExtensionStructure.h:validate_tombstone_proportion"]}
{"id": "C117", "title": "Samples from a static structure are independent, in order", "statement": "A structure made by create_static_structure from inserted records and queried on its own (IRS or WSS) returns as many samples as asked for, and the sequence of the samples is distributed like independent draws: uniform from the records inserted into the range for IRS, in proportion to the weights for WSS. The order of the samples carries no information, unlike for an index (C115).", "quantifier": "all insert sequences, layouts, ranges with a record, weights of positive sum, sample sizes; all random streams counted", "why_tests_cant": "a joint distribution over all random streams; tests see some streams and cannot tell dependence of the draws from chance", "anchors": ["include/query/irs.h:local_preproc", "include/query/irs.h:distribute_query", "include/query/irs.h:local_query", "include/query/wss.h:distribute_query", "include/query/wss.h:local_query", "include/framework/DynamicExtension.h:create_static_structure"]}
{"id": "C118", "title": "Shards and levels are freed exactly when nothing needs them any more", "statement": "Versions of the structure share levels and shards. A shard is freed when the last version that holds it has been destroyed, neither earlier nor later: every query and every reconstruction on a version that exists finds all its levels and shards allocated and unchanged, however many other versions have been destroyed and in whatever order; nothing is freed twice; the temporary shards of create_static_structure are deleted and the one it returns belongs to the caller; after the last version is gone nothing is left.", "quantifier": "all layouts, shard classes, histories of flushes, tagged deletes, static structures and version retirements in any order", "why_tests_cant": "the sharing pattern depends on the history; a use after free is silent unless the memory is reused, and a leak shows in no result", "anchors": ["include/framework/structure/InternalLevel.h:reconstruction", "include/framework/structure/InternalLevel.h:append_level", "include/framework/structure/InternalLevel.h:append_buffer", "include/framework/structure/InternalLevel.h:finalize", "include/framework/structure/InternalLevel.h:clone", "include/framework/structure/ExtensionStructure.h:copy", "include/framework/structure/ExtensionStructure.h:reconstruction", "include/framework/structure/ExtensionStructure.h:flush_buffer_into_l0", "include/framework/structure/ExtensionStructure.h:get_query_states", "include/framework/DynamicExtension.h:create_static_structure"]}
{"id": "C119", "title": "The concurrent index is memory safe: sharing and freeing of levels and shards are invisible", "statement": "While inserts, erases, queries and the background reconstruction run in any interleaving, no thread ever uses a level, shard or version that has been freed, and nothing is freed twice; a query that has pinned a version keeps finding the same shards at the same addresses with the same contents until it unpins, whatever is flushed, merged and retired in between; a shard is freed as soon as no existing version points to it (at most three versions exist); and the destructor leaves nothing allocated. Every execution behaves as if each version were a deep copy and nothing were ever freed.", "quantifier": "all layouts, shard classes, watermarks, numbers of threads, schedules and executions", "why_tests_cant": "use after free needs a particular interleaving of a retirement and a query, and is silent unless the memory is reused", "anchors": ["include/framework/DynamicExtension.h:create_new_epoch", "include/framework/DynamicExtension.h:reconstruction", "include/framework/DynamicExtension.h:advance_epoch", "include/framework/DynamicExtension.h:retire_epoch", "include/framework/DynamicExtension.h:async_query", "include/framework/DynamicExtension.h:~DynamicExtension", "include/framework/scheduling/Epoch.h:clone", "include/framework/scheduling/Epoch.h:~Epoch", "include/framework/structure/InternalLevel.h:clone", "include/framework/structure/ExtensionStructure.h:copy"]}
{"id": "C120", "title": "Shards and buffers own their memory", "statement": "Objects of every shard class and buffers can be constructed and destroyed in any order and number: every destructor releases exactly what its constructor allocated and kept, with the matching function (free, delete, delete[]), no block is released twice or belongs to two objects, temporary arrays are released by the constructor itself, get_memory_usage can be called on every shard, and when no object is left nothing is allocated.", "quantifier": "all classes (Alias, ISAMTree, PGM, TrieSpline, FSTrie, LoudsPatricia, VPTree, MutableBuffer), all record counts including zero, all trees, all sequences of constructions and destructions", "why_tests_cant": "leaks, mismatched release functions and releases of indeterminate pointers are silent; the failing case needs a shard in which no record is left", "anchors": ["include/shard/FSTrie.h:FSTrie", "include/shard/FSTrie.h:~FSTrie", "include/shard/LoudsPatricia.h:~LoudsPatricia", "include/shard/Alias.h:~Alias", "include/shard/ISAMTree.h:~ISAMTree", "include/shard/PGM.h:~PGM", "include/shard/TrieSpline.h:~TrieSpline", "include/shard/VPTree.h:~VPTree", "include/shard/VPTree.h:~vpnode", "include/framework/structure/MutableBuffer.h:~MutableBuffer", "include/util/SortedMerge.h:sorted_array_from_bufferview"]}
{"id": "C121", "title": "get_record_count beside tombstone erases", "statement": "With any number of threads inserting, erasing (tombstones), flushing and reconstructing, a call of get_record_count returns, for one moment between its call and its return, the number of inserts and erases that had claimed their slot, less two for each pair of an insert and an erase that has cancelled; no entry is counted twice or missed while a flush moves it.", "quantifier": "all interleavings, layouts, scale factors, shard types", "why_tests_cant": "needs a flush that cancels pairs between pinning the epoch and taking the view, with every position of the inserters", "anchors": ["include/framework/DynamicExtension.h:get_record_count", "include/framework/structure/ExtensionStructure.h:get_record_count", "include/framework/structure/ExtensionStructure.h:flush_buffer"]}
{"id": "C122", "title": "The law of samples drawn beside concurrent inserts", "statement": "While other threads insert, flush and reconstruct, the samples of a range sampling query are independent uniform draws from the records in range whose inserts had taken effect at one moment between the call and its return, and those of a weighted query are independent draws in proportion to weight from all such records; a range sampling query with something in range ends with probability one.", "quantifier": "all interleavings, layouts, scale factors, ranges, sample sizes, random streams", "why_tests_cant": "a probability over all random streams for every interleaving; a bias that depends on where a concurrent flush has put the records shows in no single run", "anchors": ["include/framework/DynamicExtension.h:async_query", "include/query/irs.h:distribute_query", "include/query/wss.h:distribute_query"]}
{"id": "C123", "title": "The project's own index tests hold whatever the random numbers", "statement": "The assertions of tests/include/dynamic_extension.h on DynamicExtension(100, 1000, 2) hold for every layout and delete policy and every outcome of the random numbers the tests draw: record counts and heights after inserts, the 251 results of the range query, the tombstone proportion after the insert and erase loop, and the return values, size and order in the create_static_structure test.", "quantifier": "all layouts, delete policies, records and random choices of the test loops", "why_tests_cant": "the tests draw fresh random numbers on every run, so a pass says nothing about the next run; an assertion that fails with small probability looks like a flaky test", "anchors": ["tests/include/dynamic_extension.h:t_insert_with_mem_merges", "tests/include/dynamic_extension.h:t_range_query", "tests/include/dynamic_extension.h:t_static_structure"]}
{"id": "C124", "title": "The project's own shard, range and level tests hold for any records", "statement": "The registered tests of tests/include/shard_standard.h, tests/include/rangequery.h, tests/include/rangecount.h and tests/internal_level_tests.cpp pass for any number of records and any records: a buffer of inserts, tombstones of some of them and further inserts gives a shard with exactly the surviving records; three shards of random records, repeated or not, merge to a shard that interleaves them; a shard of records and one of their tombstones merge to nothing; every stored record is found and every absent key reported missing; a range query on a shard, on a buffer or combined over two shards returns exactly the records in range, and a range count their number; two levels and their reconstruction hold all the records. The test t_lower_bound, which is written but not registered, would fail on the ISAM tree.", "quantifier": "all record counts up to 2^28, all records, all tie-breaking of the merge queue by header or cursor", "why_tests_cant": "the tests run one size and, where random, one draw per run; with 64-bit random keys they never see repeated records", "anchors": ["tests/include/shard_standard.h:t_shard_init", "tests/include/shard_standard.h:t_full_cancelation", "tests/include/rangequery.h:t_range_query_merge", "include/util/SortedMerge.h:sorted_array_merge"]}
{"id": "C125", "title": "The project's own VPTree and k-NN tests hold whatever the random numbers", "statement": "The assertions of tests/vptree_tests.cpp hold for every sequence of random numbers drawn by the tree construction and by the test: record counts after construction and merging, point lookups that hit and miss, the buffer query (points 115 to 124), and t_knn_query: exactly k results, consecutive on the diagonal, starting where the test expects.", "quantifier": "all points, tree shapes, random draws, k and query points of the tests, and every priority queue meeting its contract", "why_tests_cant": "the tree is built from fresh random numbers on every run and equal distances are decided by the queue; a passing run says nothing about the next one", "anchors": ["tests/vptree_tests.cpp:t_knn_query", "tests/vptree_tests.cpp:t_buffer_query", "tests/vptree_tests.cpp:t_point_lookup_miss"]}
{"id": "C126", "title": "The project's own sampling tests hold whatever the random numbers", "statement": "The assertions of tests/include/irs.h and tests/include/wss.h hold for any records and any sequence of random numbers: a range sample from a shard has exactly k records, all stored and in range; one from a buffer has at most k, all in range (exactly k without rejection); two shards together give exactly k and combine keeps all; a weighted sample from a shard has exactly k records and one from a buffer of at least two records at most k.", "quantifier": "all records, ranges with a stored record, sample sizes, random streams and alias structures meeting their contract", "why_tests_cant": "each run of a sampling test sees one stream of random numbers; a sample that violates the bound may need a stream no run has drawn", "anchors": ["tests/include/irs.h:t_irs", "tests/include/irs.h:t_buffer_irs", "tests/include/irs.h:t_irs_merge", "tests/include/wss.h:t_wss_query", "tests/include/wss.h:t_buffer_wss_query"]}
{"id": "C127", "title": "Concurrent appends to a fresh buffer are linearizable and always return", "statement": "Any number of threads that only append to one MutableBuffer: when they are done, the buffer and every return value are those of some sequential order of the appends that keeps the order of each thread. If the records fit below the high watermark every append succeeds and the buffer holds exactly the appended records; otherwise it holds exactly high-watermark many. All calls return, however the threads are scheduled.", "quantifier": "all numbers of threads, lists of inserts and tombstones, watermarks and interleavings of the atomic operations", "why_tests_cant": "t_multithreaded_insert runs one schedule of the operating system and looks only at the final count; lost exchanges are rare", "anchors": ["framework/structure/MutableBuffer.h:append", "framework/structure/MutableBuffer.h:try_advance_tail", "tests/mutable_buffer_tests.cpp:t_multithreaded_insert"]}
{"id": "C128", "title": "delete_record on a buffer view tags exactly the first equal record of the view", "statement": "delete_record(r) on a buffer view returns true exactly if the view has a record equal to r; then the first such record is tagged as deleted, seen through every live view, and no other record is. If the records of a view are distinct, then after any list of delete_record calls exactly the records of the list are tagged in addition.", "quantifier": "all histories of appends, views, moves, head advances and deletes; all views, wrapped or not; all lists of records", "why_tests_cant": "t_bview_delete deletes three present and two absent records of one view that does not wrap around the end of the ring", "anchors": ["framework/structure/BufferView.h:delete_record", "tests/mutable_buffer_tests.cpp:t_bview_delete"]}
{"id": "C129", "title": "The project's buffer and view tests hold for any watermarks and records", "statement": "t_insert, t_truncate, t_advance_head and t_bview_get succeed whatever the watermarks and records: each append below the high watermark is accepted with every counter right, a full buffer refuses, truncate empties it; a view keeps reading its records, by get and copy_to_buffer, while the head advances, a second advance is refused until the view is gone, the capacity is then free again, and new views read the records behind the new head.", "quantifier": "all watermarks, record lists and tombstone filters without false negatives", "why_tests_cant": "each test runs one pair of watermarks and consecutive records", "anchors": ["tests/mutable_buffer_tests.cpp:t_insert", "tests/mutable_buffer_tests.cpp:t_truncate", "tests/mutable_buffer_tests.cpp:t_advance_head", "tests/mutable_buffer_tests.cpp:t_bview_get", "framework/structure/MutableBuffer.h", "framework/structure/BufferView.h"]}
{"id": "C130", "title": "The project's string shard and point lookup tests hold for any word list", "statement": "t_mbuffer_init, t_shard_init, t_point_lookup, t_point_lookup_miss, t_point_lookup_query and t_buffer_point_lookup succeed whatever the words: deleting records of a buffer and appending more leaves exactly the rest in the trie shard; three shards merge to all their records, also with equal keys; every stored key is found, alone and with its own record, and any other key is missing.", "quantifier": "all lists of string records, with different keys where records are looked up or deleted, and all tries that are exact on sorted different keys", "why_tests_cant": "the tests read one fixed word list and look up one absent word", "anchors": ["tests/include/shard_string.h", "tests/include/pointlookup.h", "shard/FSTrie.h", "query/pointlookup.h:local_query", "query/pointlookup.h:local_query_buffer"]}
