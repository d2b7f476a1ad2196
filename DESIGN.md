# Formal model of dynamic-extension (Lean 4)

`properties.jsonl` lists the properties (C01..). `MANIFEST.json` maps each to theorems with a status.
`lean/Verif/Model/*` is the model of the code, `lean/Verif/Spec.lean` the small independent
specification vocabulary, `lean/Verif/Proofs/*` helper lemmas, and `lean/Verif/Properties/*` the
property theorems, `example`s showing that their hypotheses can be met, and the negation witnesses
for properties the code does not have. `seeded/LOG.jsonl` lists wrong programs (edits of the model) the
theorems were tried against.

## Approach

* Every C++ function is a total computable Lean function. Undefined behaviour and failed
  `assert`s are distinct outcomes: `Res a = Except Fault a` with `Fault.ub` / `Fault.abort`.
  "`= .ok x`" in a theorem therefore means "no undefined behaviour, no abort".
* Serial operation (SerialScheduler) is a deterministic state machine; histories are lists of
  operations (`Index.Op`) and the theorems are inductions over arbitrary histories
  (`Index.run`).
* Concurrent parts (buffer tail/head protocol, epoch pins, reconstruction flag, condition
  variable, FIFO scheduler) are small-step transition systems with one step per atomic
  load/store/CAS and arbitrarily many threads. Invariants are proved for every reachable state,
  defects are proved by exhibiting a schedule.
* Shared versions (`shared_ptr` levels and shards) are a heap model (Snapshot): a structure is a list
  of addresses, reconstruction allocates, tagging writes through.
* If the code violates a property, the negation is proved with a concrete run of the model
  (`Cxx_false…`), and `…_partial` theorems state what is true instead. The English statement in
  properties.jsonl stays the full one; the status is then "partial".
* Randomness: theorems about "whatever is drawn" quantify over all tapes; C64 counts over all tapes.

## External code: parameters with contracts

| external | where | contract used |
|---|---|---|
| psudb::PriorityQueue | merges, combine | a queue oracle `PQ` arranging the heap content; `ByRec`: pops in record order, ties arbitrary and even time dependent; `ByWrapped`: pops in the order of `Wrapped::operator<`. Each theorem names the contract it needs; conservation (C02) needs none |
| psudb::PriorityQueue in k-NN | VPTree | bounded max-queue keeping the k least (`MaxQ`), as used by the code |
| PGM index, RadixSpline | Learned | `search` gives bounds enclosing the lower bound of the key (`Valid`), the documented guarantee |
| fst::Trie | FSTrie | over a non-empty strictly increasing key list `exactSearch` returns the index of a key or a kNotFound (`Trie.Exact`) |
| louds::Patricia | LoudsPatricia | after `add` of strictly increasing keys and `build`, `lookup` returns the position of a key in that order or -1 (`Trie.Exact`); nothing without `build` |
| psudb::Alias | Sampling | an index of positive weight is drawn (`AliasFn.Ok`); for C64 also fair (`FairOn`) |
| gsl_rng | Sampling, VPTree | arbitrary tape; `gsl_rng_uniform_int` aborts for 0 or beyond its range |
| psudb::LockedPriorityQueue, ctpl | Scheduler | `BagPop` (hands out some element), `MinPop` / `MaxPop` for the two possible orders |
| std::sort | buffer scan, k-NN | a sorted permutation; on wrapped records determined by the total order (record, header), hence insertion sort |
| sync/atomics | Conc, Scheduler | sequentially consistent (the code uses default orderings); `condition_variable` may be notified only when waiting; no spurious wake-ups are needed for any witness |

## Simplifications

* `size_t` counters are natural numbers (no wrap at 2^64). Where unsigned wrap-around is reachable
  (`old_value - head` in try_advance_tail, `reccnt - 1` of an empty Alias shard, `upper - lower` of an
  inverted range, `cutoff` of WSS) it is modelled. The int32 truncation of the tail is modelled
  separately (C47).
* Memory allocation succeeds. Objects in the heap model are never freed; destruction of epochs and
  versions is modelled in the transition system (C48).
* `double` distances, weights and level capacities are exact numbers in the other modules; that capacities computed
  with `pow` make no difference up to 2^53, and are undefined beyond 2^64, is C116. The effect of
  rounding on k-NN queries is the subject of C98 and C99, of special values on comparison and hashing of C97.
* Bloom filters: the buffer's filter is a parameter without false negatives (`BufferApi`, C84); the shards' filters are one in `LevelCheck` (C86) and left out elsewhere: they only guard `point_lookup(rec, true)`, which the framework reaches only from `InternalLevel::check_tombstone`, which nothing calls.
* Concurrent model: atomics without initialiser are zero (C++20); epoch numbers are not
  reused; the plain stores of an append are one step (word by word in `Torn`, C105, which shows when that
  makes no difference); reconstruction work between its atomic accesses is one step.
* `ReconstructionTask::reccnt` and `ReconstructionVector::total_reccnt` (util/types.h) influence nothing that is run (`LOOKAHEAD` is 1) and are only carried along. The BSM planner adds to the `reccnt` of a task it has not initialised (ExtensionStructure.h 357-366); the value is taken as 0.
* `WeightedRecord::operator==` ignores the weight; `C40_weighted` is about the order only.
* Queries are modelled on the snapshot they run on; `std::future` plumbing is left out.

## Modelled code

| module | code |
|---|---|
| Record, RecordVariants | include/framework/interface/Record.h: Record, WeightedRecord, Wrapped, header bits, CosinePoint, EuclidPoint orders |
| Floats | the point records with double coordinates (comparison, RecordHash) and VPTree.h build_map / point_lookup with the hash map |
| Views | MutableBuffer.h, BufferView.h: several live views, moves, destruction, reference counts (one thread) |
| SerialSched | SerialScheduler.h with the whole epoch protocol of DynamicExtension.h on one thread |
| Points | calc_distance of the point records over the reals |
| Driver | Query.h and DynamicExtension.h async_query for an arbitrary query class; the six query classes against it |
| Rounding | EuclidPoint::calc_distance with rounded floating-point arithmetic, and with 64-bit unsigned coordinates |
| Buffer | include/framework/structure/MutableBuffer.h, BufferView.h (serial use) |
| BufferApi | MutableBuffer.h, BufferView.h: truncate, check_tombstone, is_full, get_available_capacity, with the tombstone filter and wrapping size_t |
| Merge | include/util/SortedMerge.h, the buffer scan of the sorted shards, util/Cursor.h |
| Structure | InternalLevel.h, ExtensionStructure.h: get_reconstruction_tasks, reconstruction, flush for leveling, tiering, BSM; tagged_delete; counts |
| Dynamic | DynamicExtension.h: constructor, insert, erase, create_static_structure, counts, with SerialScheduler |
| LearnedBuild | PGM.h 43-186, TrieSpline.h 40-225: the constructors with their inline loops, keys given to the index builders, key range |
| Compaction | ExtensionStructure.h get_compaction_tasks, DynamicExtension.h enforce_delete_invariant |
| Memory | get_memory_usage of DynamicExtension, ExtensionStructure, InternalLevel, MutableBuffer, ISAMTree, Alias, VPTree |
| LevelCheck | InternalLevel.h check_tombstone with the filtered point_lookup of the shard classes |
| SortedShard, ISAM, Learned | ISAMTree.h, PGM.h, TrieSpline.h, Alias.h: constructors, bounds, point_lookup |
| VPTree | VPTree.h: construction, partition, point_lookup, k-NN search, hash-map variant |
| Query | rangequery.h, rangecount.h, pointlookup.h, knn.h and the driver of DynamicExtension::async_query |
| Sampling | irs.h, wss.h |
| Instances | concrete instances for examples and witnesses |
| Conc | DynamicExtension.h and MutableBuffer.h under concurrency: insert, flush, epochs, jobs, views, await_next_epoch |
| Torn | MutableBuffer.h append: the stores into a slot; loads of slots through a view, word by word |
| Work | counting wrapper around a shard class (not in the code: an instrument for C106) |
| Snapshot | Version/ExtensionStructure as shared objects: clone, reconstruction, tagged delete on old versions |
| Scheduler | FIFOScheduler.h, SerialScheduler.h, Task.h |
| Stats | statistics.h: log_time_data and the counters |
| Teardown | DynamicExtension.h: ~DynamicExtension (the deletes); Epoch.h: ~Epoch |
| Cost | counted copies of the searches of ISAM, Learned and Sampling (instruments for C108, not in the code) |
| VPCost | counted copies of the functions of VPTree (instruments for C110, not in the code) |
| IntCoords | EuclidPoint::calc_distance and the sums of CosinePoint::calc_distance for all integer types, with promotion, wrapping and signed overflow |
| Util | ReconstructionVector and Cursor (get_next, advance_cursor) as classes of their own |
| Capacity | calc_level_record_capacity in double arithmetic (ExtensionStructure.h 647-649) and its callers |
| Ownership | shared_ptr reference counts of levels and shards: InternalLevel.h 40-140, 274-283, ExtensionStructure.h 48-75, 420-507, 597-630, DynamicExtension.h 305-344 |
| ConcHeap | the concurrent protocol with the versions on the heap of Ownership: DynamicExtension.h 105-120, 498-514, 540-590, 630-660, Epoch.h 37-84 |
| ShardMem | what constructors allocate and destructors release: Alias.h 43-110, ISAMTree.h 51-94, PGM.h 43-191, TrieSpline.h 40-230, FSTrie.h 36-147 and 184-186, LoudsPatricia.h 36-145 and 181-183, VPTree.h 45-48, 54-128 and 240-296, MutableBuffer.h 43-59; not what standard containers and external index classes allocate |
| OwnTests | tests/include/dynamic_extension.h: the loop of t_tombstone_merging_01 and t_static_structure, random choices as parameters |
| OwnShardTests | tests/include/shard_standard.h, rangequery.h, rangecount.h, tests/internal_level_tests.cpp: the test programs, records as parameters |
| OwnKnnTests | tests/vptree_tests.cpp: the shards, lookups and k-NN queries of the tests; points, random numbers and queue as parameters, exact distances |
| OwnSampleTests | tests/include/irs.h, tests/include/wss.h: the queries of the sampling tests on shards and buffers; records, random numbers and alias structure as parameters |
| MtAppend | framework/structure/MutableBuffer.h 61-89, 232-250 with concurrent threads (tests/mutable_buffer_tests.cpp 159-196): the atomic operations of append as steps; no flushes, views or tombstone filter |
| OwnViewTests | tests/mutable_buffer_tests.cpp 51-156, 202-315: the programs of t_insert, t_truncate, t_advance_head, t_bview_get |
| OwnStringTests | tests/include/shard_string.h 32-152, tests/include/pointlookup.h 37-99: the programs of the string shard and point lookup tests |
| Affinity | DynamicExtension.h: SetThreadAffinity (the core chosen; not the system call) |
| Tail32 | the narrowing in MutableBuffer::append |
| FSTrie | FSTrie.h: both constructors, point_lookup; pointlookup.h over `const char*` keys |
| Louds | LoudsPatricia.h: both constructors, point_lookup |
| Full | Conc composed with Structure: DynamicExtension.h create_new_epoch, reconstruction, async_query on real structures per epoch (tasks and flush of one job are one step) |

## Not modelled

Internals of the external trie libraries behind FSTrie / LoudsPatricia, `get_aux_memory_usage` and
aligned allocation sizes, the effect of thread affinity, the running times themselves, benchmarks, the tests other than those of C123-C130 (tests/include/concurrent_extension.h and tests/triespline_debug.cpp are not modelled as programs; what the first relies on is in C46, C60 and C73), the bodies of the
external libraries listed above. LoudsPatricia does not meet the shard interface (no RECORD typedef).

## Trusted base

Lean's kernel and the axioms `propext`, `Classical.choice`, `Quot.sound` (per theorem: end of this file). No own
axioms, no `sorry`, no `native_decide`, no `bv_decide`. What remains to be trusted: that the definitions in
`Verif/Model` describe the cited lines of /repo, that the contracts above hold of the external code, and that
the statements in `Verif/Properties` say what `properties.jsonl` says.


## Per property

### C01 Serial inserts always succeed (proved)

* Model: Buffer, Dynamic. Theorems in Buffer.lean: `C01_serial_inserts_succeed`, `C01_lwm_zero`.
* How: invariant: the buffer holds at most lwm records between operations, a flush empties it; induction over histories.
* Any layout/shard class; shown for histories that run without fault.

### C02 No acknowledged record is lost or invented (leveling, tiering) (proved)

* Model: Merge, Structure, Dynamic, SortedShard. Theorems in Conservation.lean: `C02_conservation`.
* How: relation `Reduces` (pairs of a record and its tombstone, and tagged records, may vanish; nothing else) is preserved by the buffer scan, the merge loop and every reconstruction; induction over histories.
* Leveling and tiering, sorted shards, arbitrary priority queue.

### C03 No acknowledged record is lost under BSM (partial)

* Model: Structure, Dynamic. Theorems in ConservationBSM.lean: `C03_partial`, `C03_odd_watermark_partial`, `C03_false`.
* How: witness run for the lost block; invariant that level 0 never holds an empty shard under the partial's condition; for odd watermarks a parity argument removes the condition.
* False of the code; proved for histories without a void block and for every history with an odd watermark.

### C04 Insert-only range query is exact (proved)

* Model: Query, Dynamic. Theorems in RangeQuery.lean: `C04_insert_only_exact`.
* How: conservation with nothing to cancel, exact bounds of the shard search, counting of the merge loop of combine.

### C05 Range query completeness with tombstone deletes (proved)

* Model: Query, Dynamic. Theorems in RangeQuery.lean: `C05_completeness`.
* How: counting: each tombstone swallows at most one equal record in combine and in merges.
* BSM under the no-void-block condition the statement excludes.

### C06 Range query does not return erased records (tombstones) (partial)

* Model: Query, Dynamic. Theorems in Cycle.lean: `C06_partial`, `C06_old_erase_partial`, `C06_false`.
* How: witness; position of a tombstone relative to its record in the order of shards, for erases that have left the buffer.
* False of the code while the tombstone is buffered; proved for erases at least lwm operations old and for record-sorted in-range buffers.

### C07 Range query returns only stored, in-range records (proved)

* Model: Query, Dynamic. Theorems in RangeQuery.lean: `C07_only_inserted_in_range`.
* How: every entry is in some shard or the buffer; conservation gives the history.

### C08 Range query does not return erased records (tagging) (partial)

* Model: Query, Dynamic. Theorems in RangeQuery.lean: `C08_partial`, `C08_false`.
* How: witness; what exactly is returned is proved.
* False of the code: tagged entries still stored are returned.

### C09 Range count is exact with tagging deletes (proved)

* Model: Query, Dynamic. Theorems in RangeCount.lean: `C09_tagging_count`.
* How: counting of untagged in-range entries.

### C10 Range count accounts for tombstones (partial)

* Model: Query, Dynamic. Theorems in RangeCount.lean: `C10_partial`, `C10_history_partial`, `C10_false`.
* How: witness; the exact value of the count in terms of stored entries and of the history.
* False of the code: stored tombstones are not subtracted; what the count is instead is proved.

### C11 Range count is always defined (partial)

* Model: Query, Dynamic. Theorems in RangeCount.lean: `C11_partial`, `C11_false`.
* How: `ub` outcome of the read past the array characterised exactly; witness.
* False of the code: UB when some shard has no key at or above the lower end; defined exactly otherwise.

### C12 Tagging erase reports presence truthfully (partial)

* Model: Buffer, Dynamic. Theorems in TaggingErase.lean: `C12_partial`, `C12_first_erase_partial`, `C12_false`, `C12_fresh_false`.
* How: witnesses through stale ring slots; soundness of the lookups for the positive part.
* False of the code: stale ring slots make erase return 1 for absent records; a truthful answer proved elsewhere.

### C13 Tagging erase removes exactly one live copy (partial)

* Model: Buffer, Dynamic. Theorems in TaggingErase.lean: `C13_partial`, `C13_any_partial`, `C13_false`.
* How: frame argument: one element of one list is modified.
* False of the code for repeated erases; proved for the first erase and, for any erase, that at most one entry is tagged.

### C14 Record count is exact (proved)

* Model: Dynamic. Theorems in Counts.lean: `C14_stored`, `C14_insert_only`.
* How: record counts equal lengths of the data.

### C15 Tombstone count (partial)

* Model: Dynamic. Theorems in Counts.lean: `C15_tagging`, `C15_partial`, `C15_excess_partial`, `C15_false`.
* How: invariant describing the excess of the counter; witness.
* False of the code: the buffer's tombstone counter is never reset; the exact excess is proved.

### C16 Height never decreases and is logarithmic (proved)

* Model: Structure. Theorems in Shape.lean: `C16_height_monotone`, `C16_tiering`, `C16_leveling`, `C16_bsm`, `C16_bsm_insert_only`.
* How: potential argument; digits of the number of flushes.
* Tiering: bijective base-sf digits; leveling: logarithmic in the number of buffers flushed; BSM: exact for insert-only histories, logarithmic bound for all.

### C17 Tiering level capacity (proved)

* Model: Structure. Theorems in Shape.lean: `C17_tiering_capacity`.
* How: layout invariant by induction over flushes.

### C18 Leveling level capacity (partial)

* Model: Structure. Theorems in Shape.lean: `C18_partial`, `C18_false`.
* How: witness; the sum bound by induction.
* False of the code: level 2 can hold 18 records at capacity 16; the bound that holds is the sum of the capacities of levels 0..i.

### C19 BSM is a binary counter (proved)

* Model: Structure. Theorems in Shape.lean: `C19_binary_counter`, `C19_bound`.
* How: binary counter refinement: level i is full iff bit i of the flush count is set.

### C20 A flush always fits in level 0 (proved)

* Model: Structure, Dynamic. Theorems in Safety.lean: `C20_no_abort`.
* How: all `abort` outcomes unreachable under the layout invariants.
* No assert of the framework fails in any history, layout and delete policy.

### C21 create_static_structure returns all records (partial)

* Model: Dynamic, Merge. Theorems in Cycle.lean, StaticBlocks.lean: `C21_insert_only`, `C21_net_partial`, `C21_single_cycle_partial`, `C21_tagging_partial`, `C21_blocks_partial`, `C21_false`.
* How: merge law plus strict sortedness; witness.
* Undefined when a buffer cancels out completely; defined as long as no run of whole buffer blocks, and not the buffered operations, cancel out (C21_blocks_partial); otherwise net multiplicities, order and single-cycle exactness proved.

### C22 Index operations never hit undefined behaviour (sorted shards) (partial)

* Model: all sorted-shard modules. Theorems in Safety.lean, Segments.lean: `C22_partial`, `C22_blocks_partial`, `C22_more_inserts_partial`, `C22_false`, `C22_false_tagging`, `C22_false_lookup`, `C22_reccnt_unused`.
* How: shards stay non-empty if nothing can cancel, or (by C83) if no interval they stand for nets out; witnesses.
* False of the code: shards that become empty and point_lookup past the end; proved with tombstones when no run of whole buffer blocks nets out to nothing, in particular when no record is both inserted and erased or every block has more inserts than erases. One read of an uninitialised field (ReconstructionTask::reccnt for BSM) is not modelled as UB; C22_reccnt_unused shows that its value has no effect.

### C23 Sorted merge law (proved)

* Model: Merge. Theorems in Safety.lean: `C23_merge_law`.
* How: loop invariant over an arbitrary queue oracle satisfying the contract.

### C24 In-buffer insert then delete leaves no trace after a flush (partial)

* Model: Merge, Buffer. Theorems in Cycle.lean: `C24_partial`, `C24_false`.
* How: scan of the sorted copy; witness with a wrapped view.
* False when the buffer view wraps around the ring; proved otherwise.

### C25 ISAM tree search is exact (proved)

* Model: ISAM. Theorems in Search.lean: `C25_isam`.
* How: separator invariant of every internal node, descent invariant, counting of nodes.
* Both bounds exact for all sizes and fanouts; nodes built = nodes allocated.

### C26 Learned-index shard search is usable for range scans (partial)

* Model: Learned. Theorems in Search.lean: `C26_pgm`, `C26_triespline_partial`, `C26_false_triespline`, `C26_searches_sound`.
* How: invariant of the binary and linear search between the bounds of the external index.
* PGM proved; TrieSpline false for exactly 50 records (index not built but used), proved for every other size. The external index is a parameter with a validity contract.

### C27 Alias shard search (proved)

* Model: Learned. Theorems in Search.lean: `C27_alias`.
* How: binary search invariant.

### C28 Sorted-shard point lookup (partial)

* Model: SortedShard, ISAM, Learned. Theorems in Search.lean: `C28_isam_partial`, `C28_pgm_partial`, `C28_triespline_partial`, `C28_false`.
* How: scan over equal keys; characterisation of the out-of-bounds read.
* Found iff stored; false in that one slot past the array is read for a record greater than all stored ones with a stored key (exact characterisation proved).

### C29 VPTree construction (proved)

* Model: VPTree. Theorems in VPTree.lean: `C29_vptree`.
* How: build is a permutation with the inside/outside partition property at each node; induction on the subarray.
* Any distance function, leaf size and random stream.

### C30 k-NN search of a VPTree is exact (proved)

* Model: VPTree. Theorems in VPTree.lean: `C30_knn_shard`.
* How: pruning soundness from the triangle inequality; bounded queue keeps the k least.
* k >= 1 and a symmetric distance with the triangle inequality in an ordered group; rounding not modelled.

### C31 VPTree point lookup finds stored records (partial)

* Model: VPTree. Theorems in VPTree.lean: `C31_sound`, `C31_clear_partial`, `C31_small_partial`, `C31_hmap`, `C31_false`, `C31_false_tie`, `C31_false_null`, `C31_false_empty`.
* How: general negative theorem for large shards; soundness; hash-map variant.
* False without the hash map: every shard of at least 2*LEAFSZ+4 distinct records contains a stored record that is not found. Exact with the hash map and for shards of one leaf.

### C32 k-NN query is exact across buffer and shards (proved)

* Model: VPTree, Query, Dynamic. Theorems in VPTree.lean: `C32_knn_index`, `C32_inserted`.
* How: merge of exact local answers; conservation.

### C33 k-NN query does not return erased records (tagging) (partial)

* Model: VPTree, Query, Dynamic. Theorems in VPTree.lean: `C33_buffer_partial`, `C33_false`.
* How: witness; buffer part filters tags.
* False for records in shards (tags are ignored by the tree search); proved for records erased while still in the buffer.

### C34 Independent range samples are drawn from the range (proved)

* Model: Sampling, ISAM. Theorems in Sampling.lean: `C34_in_range`, `C34_insert_only`.
* How: invariant over all random streams; exact bounds.
* Any history, layout, delete policy, random stream and range for ISAM shards, given that psudb::Alias never draws an index of weight 0 and sizes fit 64 bits: everything returned is stored and in range. For insert-only histories and lower <= upper the query also never faults.

### C35 IRS returns the requested number of samples (partial)

* Model: Sampling. Theorems in Sampling.lean: `C35_partial`, `C34_insert_only`, `C35_false`.
* How: witness; one round suffices when nothing is rejected.
* Never more than requested; exactly as many when no draw can be rejected. False with rejection sampling: repeat() subtracts the whole output again in every round, so fewer samples are returned (witness: 1 of 4).

### C36 IRS terminates (partial)

* Model: Sampling. Theorems in SampleEnd.lean, Sampling.lean: `C36_partial`, `C36_probability_partial`, `C36_almost_surely_partial`, `C36_false`, `C36_false_rejection`.
* How: no stream ends the loop when nothing is in range; measure once something was drawn; the streams still running are counted with the generating function of a round evaluated at 0.
* Proved to run forever whenever no stored record is in range (also on an empty index), for every random stream; proved to end in one round when nothing can be rejected and within n+1 rounds of the first drawn sample. With N of T stored entries in range, after any history, the probability of running for more than r+n+1 rounds is at most (1-N/T)^(nr), so the query ends with probability 1; it is not 0 (C36_false_rejection).

### C37 Weighted sampling returns the requested number of samples (partial)

* Model: Sampling. Theorems in Sampling.lean: `C37_stored_partial`, `C37_exact_partial`, `C37_false_newest`, `C37_false_single`, `C37_false_many`.
* How: all streams; general negative theorems and witnesses.
* Returned records are stored and not tagged; exact number when buffered records have equal weight. False: the newest buffered record is never drawn (cutoff is count-1), a single buffered record aborts the generator, and sample sizes pile up over rounds (8 returned for 4).

### C38 Point lookup returns the current record (partial)

* Model: Query, Dynamic. Theorems in LookupOrder.lean, PointLookup.lean: `C38_insert_only_partial`, `C38_tagging_live_partial`, `C38_tagging_erased_partial`, `C38_tombstone_live_partial`, `C38_single_shard_partial`, `C38_false_buffer`, `C38_false_tiering`, `C38_false_tagging`, `C38_false_value`.
* How: order of consultation; with one shard per level the shards are asked newest first (C83), so the tombstone is met before the record; witnesses.
* Exact for insert-only histories (any layout, any exact shard lookup) and for tagging with unique keys. With tombstones: live records with a unique key are returned on any layout; on leveling and BSM a record inserted at least lwm operations ago is returned iff it was not erased. False in general: with tombstones an erased record is still returned (its own copy comes first in the buffer, or sits in an older shard of a tiering level, which is asked first); with tagging a tagged copy hides a re-inserted one; and the sorted shards are asked for value 0, missing other values; concrete witnesses are proved.

### C39 Record header flags are independent (partial)

* Model: Record. Theorems in Records.lean: `C39_partial`, `C39_false`.
* How: header words as bit vectors, by extensionality.
* set_tombstone(false) zeroes the header: refuted; every other operation proved.

### C40 Record orders are strict total orders (partial)

* Model: Record, RecordVariants. Theorems in Records.lean: `C40_record`, `C40_weighted`, `C40_wrapped_partial`, `C40_string`, `C40_point`, `C40_wrapped_eq_false`.
* How: order axioms by case analysis on keys and values.
* Wrapped::operator== is not the equality of operator<.

### C41 Buffer views read back what was appended (proved)

* Model: Buffer. Theorems in Buffer.lean: `C41_view_reads_back`.
* How: ring arithmetic; induction over operations.

### C42 The buffer never exceeds its high watermark under concurrency (proved)

* Model: Conc. Theorems in Concurrency.lean: `Conc.C42_watermark`, `Conc.C42_claims`, `Conc.C42_writers`, `Conc.C42_monotone`.
* How: inductive invariant of the transition system.
* For any number of threads and every interleaving of the transition system of inserts, queries and reconstructions.

### C43 A pinned buffer view is never overwritten (partial)

* Model: Conc. Theorems in Concurrency.lean: `Conc.C43_false`, `Conc.C43_newer_partial`, `Conc.C43_partial`.
* How: schedule as witness; history invariant relating slots and claims.
* False: an append that claimed its slot before a flush may write it a whole round later, into a slot of a newer view. Proved: no append claiming a later position than the view ever writes into it (all executions), and the full statement in executions whose flushes copy only finished slots.

### C44 Releasing a view releases its own head (partial)

* Model: Conc. Theorems in Concurrency.lean: `Conc.C44_false`, `Conc.C44_partial`, `Conc.C44_consequence`.
* How: schedule as witness; the stuck-count invariant for the consequence.
* False: a head advance between the two loads of release_head_reference makes it decrement the new head. Proved: that is the only wrong case, and after it the head never advances again.

### C45 A completed concurrent insert is not lost (partial)

* Model: Conc. Theorems in Concurrency.lean: `Conc.C45_false`, `Conc.C45_partial`.
* How: schedule as witness; ghost history of slots and version contents.
* False: a flush may copy a slot that has been claimed but not written. Proved for executions whose flushes copy only finished slots.

### C46 Concurrent insert fails only when the buffer is full (partial)

* Model: Conc. Theorems in Alone.lean, Concurrency.lean: `Conc.C46_false`, `Conc.C46_false_wrap`, `Conc.C46_partial`, `Conc.C46_first_partial`, `Conc.C46_alone_partial`.
* How: schedules as witnesses; invariant on lost CAS races.
* False twice: after a failed CAS the absolute tail is compared with the watermark, and a flush between the two loads makes tail - head wrap. Proved: with the head fixed during the call, failure with a non-full buffer happens only after a lost CAS race and an earlier flush; the full statement before the first flush; and, whatever flushes do, the full statement for a call during which no other append takes a position.

### C47 Appends keep working past 2^31 records (partial)

* Model: Tail32. Theorems in Tail32.lean: `Tail32.C47_exact`, `Tail32.C47_partial`, `Tail32.C47_pow2_partial`, `Tail32.C47_false`, `Tail32.C47_false_slot`, `Tail32.C47_false_half`.
* How: two's-complement arithmetic; exact characterisation of the correct positions.
* False: the tail is narrowed to int32_t. Position 2^32-1 fails for every capacity, and from 2^31 on the slot is wrong unless the capacity divides 2^64-2^32. Proved exactly when it is right; in particular below 2^31.

### C48 A pinned epoch is not destroyed (proved)

* Model: Conc. Theorems in Epochs.lean: `Conc.C48_alive`, `Conc.C48_no_ub`.
* How: inductive invariant tying job counts to threads.
* No thread ever uses a deleted epoch or version; every interleaving.

### C49 At most one reconstruction is in flight (proved)

* Model: Conc. Theorems in Epochs.lean: `Conc.C49_one`, `Conc.C49_assert`.
* How: inductive invariant on the reconstruction flag.

### C50 await_next_epoch returns (partial)

* Model: Conc. Theorems in Epochs.lean: `Conc.C50_false`, `Conc.C50_asleep`, `Conc.C50_notify_partial`, `Conc.C50_pending_partial`, `Conc.C50_returns_partial`.
* How: schedule as witness; progress lemmas.
* False: the waiter tests m_next_epoch without holding the mutex and then waits without a predicate, so it can fall asleep after the notification. Proved: a pending transition always has a thread that will notify, notify wakes every sleeper, an awake waiter returns when nothing is pending.

### C51 Queries see a stable snapshot (proved)

* Model: Snapshot. Theorems in Snapshot.lean: `Snap.C51_stable`, `Snap.C51_tags`, `Snap.C51_value`, `Snap.C51_error`.
* How: heap of levels and shards; frame properties of reconstruction on a cloned structure.
* Heap model of the shared_ptr structure; the only change visible through an old version are delete tags set by erase.

### C52 FIFO scheduler dispatches in submission order (partial)

* Model: Scheduler. Theorems in Scheduler.lean: `Sched.C52_partial`, `Sched.C52_once`, `Sched.C52_false_max`, `Sched.C52_serial`.
* How: transition system; order invariant under the contract of the queue.
* Proved if the external LockedPriorityQueue hands out a least task with respect to operator<; false if it hands out a greatest one like std::priority_queue. Each job is handed out at most once under either.

### C53 Tombstone proportion invariant (partial)

* Model: Structure, Dynamic. Theorems in Shape.lean: `C53_partial`, `C53_tagging`, `C53_false`.
* How: layout invariants; witness for leveling.
* False under leveling with tombstones; proved for tiering, BSM and for tagging on every layout.

### C54 Range samples do not contain erased records (partial)

* Model: Sampling. Theorems in SampleLaw.lean, Sampling.lean: `C54_law_partial`, `C54_share_partial`, `C54_false_double`, `C54_false_tagging`, `C54_false_tombstones`, `C34_insert_only`.
* How: exact law of the samples after any history over all stored entries, with or without erases, from the polynomial argument of C115; witnesses.
* False for both delete policies: IRS filters neither tagged records nor tombstones. What holds after any history is proved exactly: given their number the samples are independent uniform draws from all stored entries in range, so a record is returned in proportion to its stored copies and tombstones (C54_law_partial, C54_share_partial). So erasing with a tombstone can double the share of the erased record (C54_false_double).

### C55 Range samples from a static structure are in range (partial)

* Model: Sampling. Theorems in Sampling.lean: `C55_static_partial`, `C55_false`.
* How: static path; witness.
* Exact when some record is in range; otherwise the record after the range is returned sample_size times.

### C56 k-NN over Euclidean points is exact (proved)

* Model: Points, VPTree. Theorems in Points.lean: `C56_euclid`.
* How: the Euclidean distance is a metric (Minkowski), then C30/C32.
* Exact real arithmetic.

### C57 k-NN over cosine points returns the most similar records (partial)

* Model: Points, VPTree. Theorems in Points.lean: `C57_false`, `C57_false_metric`, `C57_least_similar_partial`.
* How: witnesses; what is returned is characterised.
* False: the distance is the similarity, so the least similar records are returned; it is no metric, so the tree search is not covered.

### C58 Ending a job unpins its own epoch (partial)

* Model: Conc. Theorems in Epochs.lean: `Conc.C58_false`, `Conc.C58_false_assert`, `Conc.C58_partial`, `Conc.C58_consequence`.
* How: schedules as witnesses; the only wrong case; stuck-count consequence.
* False: an epoch transition between the loads of end_job makes it decrement (or assert on) the new epoch. Proved: that is the only wrong case, and after it the old epoch is never retired and no flush completes.

### C59 Background reconstructions never trip an assertion (partial)

* Model: Conc. Theorems in Epochs.lean, Pool.lean: `Conc.C59_false`, `Conc.C59_partial`, `Conc.C59_nonempty`, `Conc.C59_false_pool`.
* How: schedule as witness; all assertions classified by invariant.
* False: a reconstruction scheduled by a delayed inserter flushes an empty buffer. Proved: the only failing assertions are that one and the one of C58.

### C60 A concurrent query sees every completed insert once (partial)

* Model: Conc. Theorems in Epochs.lean, Pool.lean: `Conc.C60_false`, `Conc.C60_false_stale`, `Conc.C60_partial`, `Conc.C60_exact`, `Conc.C60_recent`, `Conc.C60_false_pool`.
* How: ghost history invariant; schedules as witnesses.
* False because of slots claimed but not written. Proved for executions whose flushes copy only finished slots; exact if moreover all appends below the view's tail have finished.

### C61 An erase during a reconstruction survives it (tagging) (partial)

* Model: Snapshot. Theorems in Snapshot.lean: `Snap.C61_false`, `Snap.C61_partial`.
* How: witness; frame property of tagging.
* False: a tag set in a shard after it was merged is not carried to the merged shard. Proved: the erase tags the record in one shard object; every version referring to this shard sees the tag, all others are unchanged. A static_assert restricts tagging to SerialScheduler, so the interleaving needs a second client thread.

### C62 Jobs accepted by the scheduler are run (partial)

* Model: Scheduler. Theorems in Scheduler.lean: `Sched.C62_false`, `Sched.C62_partial`.
* How: schedule as witness; every submitted task is accounted for.
* False: shutdown stops the pool without looking at the task queue. Proved: every job is either finished or still in the task queue.

### C63 Destroying the scheduler terminates (partial)

* Model: Scheduler. Theorems in Scheduler.lean: `Sched.C63_false`, `Sched.C63_partial`, `Sched.C63_bounded`, `Sched.C63_heard`.
* How: schedule as witness; measure bounding the steps after shutdown; the lost wake-up is the only blocked state.
* False: the flag is tested without the mutex and the wait has no predicate, so the scheduler thread can sleep after the last notification and the destructor's join blocks. Proved: this is the only way to block; otherwise at most a bounded number of steps follow the shutdown.

### C64 Range sampling is unbiased (proved)

* Model: Sampling, ISAM. Theorems in SampleLaw.lean, Unbiased.lean: `C64_unbiased`, `C64_rejection`, `C64_rejection_many`, `aliasStd_fair`.
* How: sums over all functions Fin L -> Fin M; independence of the cells of the tape; rounds are alike.
* Counting over all streams of uniform draws; the alias structure is a parameter with the contract of being fair, met by a straightforward one. With rejection the number of samples returned may be less than asked for (C35); C64_rejection_many is about the samples that are returned.

### C65 Point lookups over string keys find the record with that content (partial)

* Model: FSTrie, Query, Dynamic. Theorems in FSTrie.lean: `C65_partial`, `C65_false_pointer`, `C65_false_literal`.
* How: conservation (nothing lost or added), shards sorted with distinct keys, contract of the trie; witnesses for another pointer and the empty literal.
* False: the buffer compares char pointers, not contents, and a key equal to the literal "" is dropped at a flush. Proved for inserts with distinct keys, looked up through the inserted pointer. Missing: histories with erases (tagging erases: C111).

### C66 The trie of a shard is always built from distinct sorted keys (partial)

* Model: FSTrie, Structure, Dynamic. Theorems in FSTrie.lean: `C66_partial`, `C66_false_duplicate`, `C66_false_empty`.
* How: shards sorted and non-empty by induction over the history, keys distinct by conservation; witnesses.
* False: the constructor from a buffer does not cancel, so an insert and an erase of one key give the key twice; a merge cancelling everything leaves m_fst uninitialised and a lookup reads it. Proved for inserts with distinct keys.

### C67 A range query running beside flushes is exact on the levels (partial)

* Model: Full, Conc, Structure, Query. Theorems in Full.lean, FullReads.lean: `Full.C67_partial`, `Full.C67_complete_partial`, `Full.C67_any_partial`, `Full.C67_progress`, `Full.C67_false`, `Full.C67_false_lost`.
* How: the protocol refined by real structures: serial lemma for a reconstruction job, ring windows as buffers, invariant that every version a thread can hold is well formed and holds exactly the flushed slots; witness schedules by decide.
* The concurrent protocol composed with the real level structures. False: a flush that copies a claimed but unwritten slot loses the record. Proved when flushes copy only finished slots: exact if the appends below the view's tail have finished, complete for the finished ones in any case. In every execution the query is defined and returns inserted records and initial slot contents only, and reconstructions fail only where the protocol does or on an empty block (C59). Inserts only; with erases see C69.

### C68 create_static_structure beside inserts and flushes (partial)

* Model: Full, Dynamic, Buffer. Theorems in FullStatic.lean, StaticTomb.lean: `Full.C68_partial`, `Full.C68_tombstones_partial`, `Full.C68_overread`, `Full.C68_false`.
* How: views bounded by the ring (protocol invariant), copy_to_buffer analysed at the bound, static structure exact on readable views; witness schedule.
* False: a view on a superseded head can cover the whole ring, and copy_to_buffer then reads past its end. Proved: exactly that case fails; otherwise, with finished appends, the result is exact and sorted. With tombstone erases, a call that succeeds returns a sorted shard whose net multiplicities are those of one moment during the call (on BSM if no stretch of at most hwm consecutive operations cancels out completely).

### C69 Concurrent range queries with tombstone erases (partial)

* Model: Full, Conc, Structure, Query. Theorems in FullTomb.lean: `Full.C69_partial`, `Full.C69_false`, `Full.C69_false_bsm`.
* How: the invariant of C67 with cancellation instead of equality: every version a thread can hold is what is left of the flushed slots after cancelling pairs; counts from conservation; under BSM the invariant holds as long as no flushed block is void, because the shard built from a block with a non-zero net count is not empty; witness schedules.
* False: a claimed but unwritten slot can still hold an old tombstone, which cancels a live record. Proved when flushes copy only finished slots and the appends below the view's tail have finished, for queries that succeed; on BSM also assuming that no stretch of at most hwm consecutive operations cancels out completely, without which records are lost (C69_false_bsm).

### C70 An insert never waits for another thread (proved)

* Model: Conc. Theorems in : `Conc.C70`.
* How: a step count for every program counter inside an insert that decreases with each step of the thread; the invariant excludes waiting.
* The assert of end_job can fail instead (C58).

### C71 A query never waits for a reconstruction (partial)

* Model: Conc. Theorems in Progress.lean: `Conc.C71_partial`, `Conc.C71_false`, `Conc.C71_false_view`.
* How: a step count for each call outside the two gaps; inside them the call's loop is an invariant; witness schedules.
* False: a reconstruction stopped between taking out the current epoch and storing the previous one, or between the two stores of advance_head, makes queries spin for ever. Proved: those two places and the miscount of C44 are the only ones; elsewhere each call ends within 7 steps; there it never ends.

### C72 A reconstruction finishes once its readers are gone (proved)

* Model: Conc. Theorems in : `Conc.C72`.
* How: a step count for every program counter of the reconstruction under the readiness condition; without it the loop is an invariant.
* The counts can be wrong (C44, C58); then a reconstruction can wait for readers that are gone.

### C73 get_record_count is linearizable (proved)

* Model: Full, Conc, Dynamic. Theorems in FullQuiet.lean, FullReads.lean: `Full.C73_record_count`, `Full.C73_bounds`, `Full.C73_sorted`, `Full.C73_vptree`, `Full.C73_quiet`.
* How: length of what a thread sees = tail of its view in every execution (protocol invariant without the tidiness condition); the tail was read at a moment after the call began.
* Every execution, also those whose flushes copy unwritten slots. Inserts only (erases cancel or tag, see C14 and C69). C73_quiet is what the project's concurrent tests assert after each insert.

### C74 Successive queries never lose records (partial)

* Model: Full, Conc, Query. Theorems in FullReads.lean: `Full.C74_own_writes_partial`, `Full.C74_monotone_partial`, `Full.C74_false`.
* How: finished appends below the tail of a view are in it; views taken later have later tails; witness schedule.
* False: a record a query has returned is lost when a slow append writes it after a flush has copied its slot. Proved for executions whose flushes copy only finished slots.

### C75 A point lookup running beside flushes is exact (partial)

* Model: Full, Conc, Query. Theorems in FullReads.lean: `Full.C75_partial`, `Full.C75_false`.
* How: what a thread holds is exactly the inserted records (C67), then the sequential lemma for point lookups; witness schedule.
* False for the same reason as C67. Proved when flushes copy only finished slots and the appends below the view's tail have finished.

### C76 A range count running beside flushes is exact (partial)

* Model: Full, Conc, Query. Theorems in FullReads.lean: `Full.C76_partial`, `Full.C76_false`.
* How: as C75 with the sequential lemma for range counts; witness schedule.
* False for the same reason as C67, and fails when a shard lies wholly below the range (C11). Proved when flushes copy only finished slots and the appends below the view's tail have finished: exact if it returns, and it returns exactly if no shard lies below the range.

### C77 A k-NN query running beside flushes is exact (partial)

* Model: Full, Conc, VPTree. Theorems in FullReads.lean: `Full.C77_partial`, `Full.C77_false`.
* How: as C75 with the sequential lemma for k-NN; witness schedule.
* False for the same reason as C67. Proved when flushes copy only finished slots and the appends below the view's tail have finished.

### C78 Queries are linearizable (partial)

* Model: Full, Conc, Query, VPTree. Theorems in Linearizable.lean: `Full.C78_range_partial`, `Full.C78_count_partial`, `Full.C78_lookup_partial`, `Full.C78_knn_partial`, `Full.C78_false`.
* How: the tail of the view was read at a moment since the call; the finished appends below it are those claimed at that moment; C67/C75/C76/C77 give the result; witness schedule from C74.
* False for the same reason as C74: no moment explains the result of a query after a flush copied an unwritten slot. Proved when flushes copy only finished slots and the appends below the view's tail have finished. Inserts only; get_record_count is C73.

### C79 Versions are freed exactly once and never pile up (proved)

* Model: Teardown, Conc. Theorems in Teardown.lean: `Conc.C79_destroy`, `Conc.C79_three`, `Conc.C79_delete`, `Conc.C79_once`.
* How: invariant: every allocated epoch is the current, the previous, the next one, or held by the reconstruction between two stores; with the protocol invariant these are distinct and allocated.
* Covers the deletes of the destructor, run when no client call and no job is in progress (a queued job may be dropped, C62); that await_next_epoch and shutdown return is the subject of C50 and C63. An epoch owns its structure; the sharing of shards between structures is C51.

### C80 Weighted sampling is fair (partial)

* Model: Sampling, Dynamic. Theorems in StaticLaw.lean, WssFair.lean: `C80_static_partial`, `C80_index_partial`, `C80_joint_partial`, `C80_stored_partial`, `C80_false`, `C80_false_double`.
* How: counting over all streams of uniform draws in two stages (source, then record) with a fair alias structure as parameter; the joint law by the generating function of two stages, as for C115; witness from C37.
* False of an index whose buffered records have weight: the newest is never drawn (C37). Proved for the static structure and for an index whose buffered records have no weight; insert-only histories. For such an index the samples are moreover independent draws up to their order (C80_joint_partial). After any history, as long as nothing stored is tagged, they are such draws from everything stored, tombstones included (C80_stored_partial), so that a tombstone doubles the share of the record it erases (C80_false_double). The alias structure is a parameter with the contract of being fair.

### C81 Inserts are lock-free (proved)

* Model: Conc. Theorems in Contention.lean: `Conc.C81_each`, `Conc.C81_cause`, `Conc.C81_all`.
* How: measure of the remaining steps that grows by at most three when another thread changes a word the insert compares; for inserts only, a potential that counts how often each insert can still disturb the others.
* An insert that schedules a reconstruction can fail the assert of end_job (C58); then it stops there.

### C82 Scheduler statistics are exact (partial)

* Model: Stats. Theorems in Stats.lean: `Stats.C82_counts`, `Stats.C82_largest_partial`, `Stats.C82_largest_apart_partial`, `Stats.C82_false`.
* How: invariant: counters plus what the calls in progress have still to add equal the calls made; for the maximum, one active call per type implies the tested maximum is still current at the store; witness schedule.
* Counts and totals proved (as 64-bit numbers). The largest time is false: the test and the store are two steps, so a smaller time can overwrite a larger one; proved: it is always one of the logged times, and exact if calls of one type do not overlap.

### C83 Deeper levels hold older data (proved)

* Model: Dynamic, Structure, SortedShard. Theorems in Segments.lean: `C83_recency`.
* How: every reconstruction replaces neighbouring shards (oldest first) by their merge; merging preserves net effects, so the intervals concatenate.
* Sorted-array shards. On BSM under the condition of C03 (otherwise records are lost).

### C84 The mutable buffer behaves as a bounded queue with tombstone lookup and truncation (partial)

* Model: BufferApi, Buffer. Theorems in BufferApi.lean: `C84_buffer_partial`, `C84_truncate_stuck`, `C84_false`.
* How: simulation by a queue; the filter is a parameter without false negatives; size_t subtraction modelled with wrap-around.
* Holds for histories in which no truncation follows a head advance. False otherwise: truncate() resets the tail but not the head, the record count wraps to 2^64 - head, and the buffer refuses every append and head advance from then on (proved for every such history, with a concrete witness).

### C85 The index of a PGM or TrieSpline shard describes the stored records (partial)

* Model: LearnedBuild, Learned. Theorems in LearnedBuild.lean: `C85_pgm_same`, `C85_triespline_same`, `C85_triespline_empty`, `C85_pgm_index`, `C85_triespline_index_partial`, `C85_range_partial`, `C85_false`.
* How: the inline loops are folds over the output of the shared loops; invariant over the inductively defined set of shards that can be made; witness by evaluation.
* Storage, fed keys, minimum and maximum proved for every shard that can be made. The announced range is false when the record with an extreme key is cancelled or dropped (witness: 52 keys up to 51, announced up to 99); proved without deletes. RadixSpline builders assert that the last key is the announced maximum; their source is not in the repository.

### C86 A level knows its tombstones (partial)

* Model: LevelCheck, Learned, ISAM. Theorems in LevelCheck.lean: `C86_lookups`, `C86_level_partial`, `C86_isam_ub`, `C86_false`.
* How: induction over the shards with the exactness of each filtered lookup; witness: a buffer with inserts and erases of one record, flushed.
* False: ISAMTree consults a filter pointer its constructors leave null, and the other classes stop at the first record equal to the key although a tombstone can follow it. Proved for levels whose filtered lookups are defined and whose shards hold of each record only tombstones or only live copies; the function has no caller.

### C87 k-NN respects tombstones (partial)

* Model: VPTree, Dynamic. Theorems in KnnTomb.lean: `C87_all_named_partial`, `C87_erased_returned`, `C87_false`.
* How: conservation for an arbitrary additive relation (Proofs/Keeps) shows that no entry ever disappears; then the k-NN theorem for indexes; witness by evaluation.
* False: neither the VPTree constructors nor the k-NN functions look at tombstones. Proved for every history: the query returns the k nearest of all records named by inserts and erases, which is the claim if nothing was erased. Tagging deletes are C33.

### C88 Tombstone compaction restores the tombstone proportion (partial)

* Model: Compaction, Structure. Theorems in Compaction.lean: `C88_partial`, `C88_leveling_fails`, `C88_false`.
* How: a violated level lies below level 0, so its task runs after one that empties level 0 and merges a null shard; C53 for the other layouts; witness by evaluation.
* False under leveling with tombstone deletes: every compaction task has source level 0 (i - i), so the second one merges an emptied level, and a grown level is read before it exists. Proved: tiering, BSM and tagging indexes never need it; under leveling it fails whenever it is needed. enforce_delete_invariant is private and has no caller.

### C89 Memory usage accounts for records and index nodes (partial)

* Model: Memory, ISAM, VPTree. Theorems in Memory.lean: `C89_isam_partial`, `C89_vptree_partial`, `C89_alias_false`, `C89_false`.
* How: sums over the visible shards; the allocation count of an ISAM tree and the counter of the VPTree builder equal the number of nodes built (inductions following the builders); witnesses.
* False: no shard class of the repository counts its records (Alias reports 0 bytes). Proved: the ring and the index nodes of ISAM trees and VPTrees are counted, each once. PGM, TrieSpline and FSTrie return the size reported by an external library.

### C90 Queries beside erases are linearizable (partial)

* Model: Full, Conc, Query, VPTree. Theorems in LinearTomb.lean: `Full.C90_range_partial`, `Full.C90_count_partial`, `Full.C90_lookup_partial`, `Full.C90_knn_partial`, `Full.C90_false`.
* How: the relation between a version and its slots kept by every step (pair-cancelling reduction, or exact for shards that cancel nothing), plus the moment at which the view was taken (C78); witness: a schedule.
* False even if nothing overlaps (insert, erase, then a query that still returns the record; C06) and while appends are in flight (C69). Proved, for executions in which flushes copy finished slots and the appends below the view have finished: one moment during the query explains the answer up to tombstones that have not met their record (range queries and counts between inserted minus erased and inserted; lookups of keys named only by inserts of one record, or by nothing; k-NN over all records named). On BSM, except for k-NN, assuming that no stretch of at most hwm consecutive operations cancels out completely (C69_false_bsm). Inserts only: C78.

### C91 One thread on a serial scheduler sees a plain sequential index (proved)

* Model: SerialSched, Full, Conc, Dynamic. Theorems in SerialSched.lean: `SerialRun.C91_serial_session`, `SerialRun.C91_serial_range_query`, `SerialRun.C91_insert_query_session`.
* How: simulation: lemmas for each stretch of steps of a call (watermark test, create_new_epoch, view, copy, flush, retire, publish, append), a relation between the concurrent state between calls and the sequential index, induction over the session; end-to-end corollary with C04.
* Tombstone deletes; for tagging, the default, see C96. The evaluation of the query is a parameter that reads the structure and the view; the shard constructor a parameter that reads only the records of its view (proved for sorted-array shards, VPTree and FSTrie).

### C92 Samples drawn beside inserts come from one moment (partial)

* Model: Full, Conc, Sampling. Theorems in FullSampling.lean: `Full.C92_range_partial`, `Full.C92_weighted_partial`, `Full.C92_false`.
* How: what a thread holds is exactly the inserted records (C67/C75), the tail was read at a moment of the call (C78), then the state-level lemmas for sampling loops over every random stream; witness schedule.
* False: a flush may copy a slot before its record is written (C59), and then the initial content of the slot, which nobody inserted, is sampled. Proved for executions in which flushes copy finished slots and the appends below the tail of the view have finished: IRS never faults and samples in-range records from one moment during the call, exactly the requested number without rejection; WSS samples inserted records whenever it returns (it may abort or loop: C37). Insert-only.

### C93 An index whose calls have all returned is never stuck (proved)

* Model: Conc. Theorems in Rest.lean: `Conc.C93`, `Conc.C93_counts`, `Conc.C93_wedged`.
* How: In a state where all threads are idle the invariant's sums of pins are zero, so all four counters are zero even though single releases may have been counted off the wrong epoch or head; the lock invariant shows the lock is free. The insert is then executed symbolically (7, 8 or 17 steps; 15 if refused), the reconstruction by C72 with an invariant that follows head and tail, and the records are inserted by induction on the list..
* Concurrent protocol model (Conc): any reachable state in which all threads are idle. The watermarks satisfy lwm <= hwm, as the buffer's constructor asserts. The thread that inserts also plays the worker of the scheduler. C93_wedged: the permanent refusal shown in C44/C58 always comes with a call that never returns.

### C94 With one worker thread every reference is counted where it was taken (proved)

* Model: Conc. Theorems in Pool.lean: `Conc.C94`, `Conc.C94_query`, `Conc.C94_insert`, `Conc.C94_rebuild`, `Conc.C94_abort`.
* How: invariant of the executions in which only one thread starts queries and reconstructions: nothing is counted on the previous epoch and the old head, what any thread has pinned is current, and no thread is in a branch for the previous epoch or the old head; the transition steps use that the worker is then the only thread that could have pinned something. With the sums of the general invariant the counts are exact; C59, C70, C71 and C72 then lose their exceptions. Witness schedules with one client and one worker for C59 and C60.
* Executions in which queries and reconstructions start on one thread only (FIFOScheduler with one worker); the get_... functions, which pin epochs on the calling thread, are not called. One worker does not prevent the failures of C59 and C60 (C59_false_pool, C60_false_pool).

### C95 Buffer views keep reading what they were created on (partial)

* Model: Views. Theorems in Views.lean: `C95`, `C95_counts`, `C95_reads_partial`, `C95_copy_partial`, `C95_view_partial`, `C95_move`, `C95_available`, `C95_false_capacity`, `C95_false_raised`, `C95_false_copy`.
* How: single-thread model of the buffer with its two reference counts and a list of view objects; invariant: the live views are at the present or the previous head and are counted there, and slot p mod capacity holds the p-th accepted append for the last capacity positions. With the high watermark at most half the capacity the tail is never more than a capacity beyond the head of a live view. Witness runs for a larger watermark and for the copy of a whole ring.
* One thread. Termination, counts, refusals, moves and capacity proved for every buffer. What a view reads is false if the high watermark is more than half the capacity (the constructor and set_high_watermark allow it), and copy_to_buffer reads past the ring for a view of the whole ring; proved otherwise.

### C96 The default configuration behaves as a sequential index with tagging (proved)

* Model: SerialSched, Full, Conc, Dynamic. Theorems in SerialSched.lean: `SerialRun.C96_tagging_session`, `SerialRun.C96_tagging_answers`.
* How: the simulation of C91 with delete tags beside the ring (an append clears the tag of its slot, delete_record sets it) and a lemma for the tagging erase: view at the present head, active epoch, tagged_delete on its structure, end_job, delete_record on the view, release, on each of the three paths; answers by induction over the session with C01, C07, C08, C12.
* The refinement holds for every layout and shard class that reads only the records of its view; the end-to-end answers for sorted-array shards with leveling or tiering and sessions that do not fault. Shards shared between epochs: the tag is written in the structure of the current epoch, the only one that is read later. What the sequential tagging index answers is the subject of C08, C09, C12, C13.

### C97 Points with floating-point coordinates compare and hash consistently (partial)

* Model: Floats. Theorems in Floats.lean: `C97_compare`, `C97_order_partial`, `C97_hash_partial`, `C97_lookup_partial`, `C97_false_zero`, `C97_false_nan_lookup`, `C97_false_nan`.
* How: doubles are their 64 bits with the IEEE 754 comparison; without NaN the comparison is that of integers (sign and magnitude), so C40 applies; that map is injective except at the zeros, so equality is equality of bytes without -0.0; the map holds, for each class of equal points, the first position (induction over the records). Witnesses: the zeros and NaN, for every hash function (telling the zeros apart).
* False: 0.0 and -0.0 are equal but hash_bytes hashes their different bytes, so a stored 0.0 is not found by -0.0 (and cannot be erased by it); with a NaN operator< is not a strict weak order, and a point with a NaN is never found. Proved: the comparisons of the model are those of the numbers the bits stand for (IEEE 754 fields, infinities included); the order for points without NaN; hash and lookup for points without NaN and -0.0. std::unordered_map is modelled by its contract, the hash function is a parameter.

### C98 k-NN in floating-point arithmetic is right up to rounding (proved)

* Model: Rounding, VPTree, Points. Theorems in Rounding.lean: `C98_knn_index`, `C98_inserted`, `C98_euclid`, `C98_not_exact`.
* How: the search is generic in +, - and the order of the distances. Induction over the tree with a weakened comparison: what is pruned is not closer than the present bound by more than eta + 3 epsilon (triangle inequality of the true distance, error of the three computed distances and of the one addition); the merge of the shard results is exact on computed distances, so the slack does not accumulate. Error of calc_distance: (1+u)^(D+4), by induction over the sum. Witness run in 53-bit arithmetic.
* The search is the model of C30/C32, run on a type of distances whose operations round. The rounding function is any with relative error u and symmetric in the sign: IEEE round-to-nearest with u = 2^-53 as long as nothing overflows or underflows. C98_not_exact: a run in 53-bit arithmetic (binary64 without exponent bounds) in which the record returned is at twice the distance of the nearest, so the slack is needed.

### C99 k-NN over unsigned integer coordinates is right (partial)

* Model: Rounding, VPTree, Points. Theorems in Rounding.lean: `C99_partial`, `C99_false`.
* How: 64-bit words; for coordinates less than 2^32 apart the wrapped square is the square, then as C98. Witness: 2^32 squared is 0.
* False: subtraction and multiplication are 64-bit and wrap; the distance between 0 and 2^32 is computed as 0, so 2^32 is returned as the nearest neighbour of 0 instead of 1. Proved, with the slack of C98, when in each dimension the coordinates lie within a range of 2^32.

### C100 A user's own shard and query classes are answered as on one collection (proved)

* Model: Driver. Theorems in UserQuery.lean: `C100_insert_only`, `C100_any_history`, `C100_tombstones`, `C100_builtin`.
* How: the driver is modelled for an arbitrary query class (structure of the eight members of Query.h). Induction over the shards, then over the rounds: the results handed to combine are partial answers of buffer and shards (after EARLY_ABORT cut behind the first non-empty one), so the contract gives an answer for the sum of the parts, which is Index.entries; C02 and the insert-only invariant say what that is. The shard invariant `good` is carried through flushes, merges and tagging. Two user classes (sum with repetition, any-record with early abort) over an unsorted bag shard meet the contract.
* The contract (`Decomposition`, SpecQuery.lean) speaks of single shards, lists of records and lists of partial answers only. Termination of classes that repeat is theirs: the answer is right if the query returns, and a class that never repeats returns. C100_builtin: the hand-specialised models of the built-in queries are this driver on their classes. Serial index; the driver beside other threads is C51, C67, C78.

### C101 Queries of a user's own classes are linearizable (partial)

* Model: Driver, Full, Conc. Theorems in FullUser.lean: `Full.C101_partial`, `Full.C101_any_partial`, `Full.C101_tombstones_partial`, `Full.C101_false`.
* How: the snapshot of a query in the concurrent model is an index state whose entries are those of the slots below the tail of its view (C67, C69) and whose shards satisfy the class's invariant; the driver theorem of C100 applies to it; the moment is the one at which the tail was read (C78). Witness: the schedule of C74 with a user's bag shard and sum query.
* False for the same reason as C67 and C78 (a flush copies a slot not yet written). Proved when flushes copy only finished slots and the appends below the view's tail have finished, with tombstone erases too (on BSM if no stretch of at most hwm consecutive operations cancels out completely); in every insert-only execution the query is defined and answers for as many values as the view's tail says, each inserted or a zeroed slot (C101_any_partial).

### C102 String tries used on their own hold and find exactly what went into them (partial)

* Model: Louds, FSTrie. Theorems in Shards.lean: `C102_partial`, `C102_louds_partial`, `C102_defined_partial`, `C102_net_partial`, `C102_false_literal`, `C102_false_erased`, `C102_false_empty`.
* How: `Made` is the inductive closure of the constructors; induction with `Reduces` for the content and `Closed` for the order, then the contract of the trie on the strictly increasing key list; witnesses by evaluation.
* FSTrie and LoudsPatricia, any tree of constructions and merges: exact for at least one record, no erases, different keys, none of them the literal ""; net counts with tombstones for any conserving class. False otherwise: the literal key is dropped, a record erased within one buffer is found, a shard whose records all cancel has no trie and cannot be merged.

### C103 Calls see the versions of the index in order (proved)

* Model: Conc, Full. Theorems in VersionOrder.lean: `Full.C103_order`, `Full.C103_published`, `Full.C103_overlap`.
* How: invariant: epochs are numbered in the order of creation; the current epoch is the newest published one, and while there is none the previous epoch (or the one held by the thread exchanging them) is; a call of get_active_epoch begun after epoch B was published keeps: whatever it can still pin is at least B. Heights and flushed slots of the versions grow with the number of the epoch, and only the unpublished one is changed.
* Any layout, shard class, thread count and execution (writers between claiming and writing a slot included). Calls that overlap are not ordered: C103_overlap shows a call that began first and pins the older version last.

### C104 Versions keep the layout's limits beside concurrent operations (proved)

* Model: Full, Structure, Conc. Theorems in VersionShape.lean: `Full.C104_tiering`, `Full.C104_leveling`, `Full.C104_bsm`.
* How: Each reconstruction job is the serial flush of an index whose buffer is the copied block. A block with unwritten slots is replaced by the same block with all slots marked visible and a class that builds the same shard from it, so the serial shape lemmas (tiering counter, leveling bound, BSM counter) apply to every job; the relation between version and flushed slots is kept by every step (Keeps) and read off at the pinned epoch. Leveling height: a third or later level is added only when level 0 and the last level together exceed the capacity of the last level..
* Inserts and erases with tombstones, any number of threads, any execution, including flushes that copy slots before they are written and blocks that cancel out; any shard class that loses records only in pairs.

### C105 A record read from the buffer is one that was appended, never a mixture (partial)

* Model: Torn, Conc. Theorems in Torn.lean: `Torn.C105_steps`, `Torn.C105_finished_partial`, `Torn.C105_visible_partial`, `Torn.C105_race_partial`, `Torn.C105_writers_partial`, `Torn.C105_flush_partial`, `Torn.C105_false`.
* How: Torn refines Conc: the write of a slot is a store per word in any order, set_timestamp and set_visible; a read is a load per word in any order. Invariant: a slot nobody writes holds the words of the Conc slot; a slot being written holds, part by part, the new or the old words (at most one writer per slot, by C43); a read in progress of a finished position agrees with the record on the parts loaded so far. A visible header means some append finished the slot. Every fine execution projects to one of Conc (C105_steps), which justifies the one-step write there. Witness by a schedule.
* False: queries look at every position of their view, also at one still being written; if the slot is used for the second time, the query gets words of the new and of the old record under a header with the visible bit of the old one. Proved, for slots written and read word by word in any order, when flushes start to copy only finished slots: reads of finished positions return the record whole and race with no write, flushes copy whole records in order, and in the first round of the ring testing the visible bit first is enough. Words are read and written atomically; the store buffers of the hardware are not modelled.

### C106 Inserting costs a logarithmic number of record copies on average (proved)

* Model: Work, Structure, Dynamic. Theorems in Work.lean: `C106_counting_is_invisible`, `C106_tiering`, `C106_leveling`, `C106_bsm`, `C106_tiering_log`, `C106_leveling_log`, `C106_bsm_log`.
* How: Potential argument: records times the levels still below them. Under tiering a move of a level pays one copy per record out of the potential; under leveling the planner moves level k only when k (with level 0) is fuller than its capacity and k+1 has room, so the merge costs at most 2*scale_factor times the records that move down, and the rest of the chain goes into empty levels without copying; under BSM the merged levels all go below. Induction over the flushes of the history. The plain and the counting index are related by erasing the counts (Bare), which commutes with every step. Heights from C16.
* Work is counted by a shard class wrapped around any other: a shard built from the buffer or merged starts with the records that went in plus the counts of the shards merged (kept in the field of the tombstone count, which no reconstruction reads). C106_counting_is_invisible: the wrapped index behaves as the plain one. The records flushed are also a lower bound, so no count is lost under tiering and leveling. BSM with erases is left out because a shard that cancels to nothing takes its count with it.

### C107 Reconstructions are spread over the configured cores (partial)

* Model: Affinity. Theorems in Affinity.lean: `C107_core_partial`, `C107_partial`, `C107_false_zero`, `C107_false_wrap`.
* How: Arithmetic on the sign-extended counter; the map from remainders to cores is injective. Witnesses by computation.
* False for thread_cnt = 0, which the scheduler takes as its default of eight threads: the first reconstruction computes a remainder by zero. False when the 32-bit counter passes -1: with three threads two reconstructions in a row get the same core. Proved for thread_cnt >= 1 (the range, always) and below 2^31 reconstructions (different cores).

### C108 A search in a shard reads a logarithmic number of nodes or records (proved)

* Model: Cost, ISAM, Learned, Sampling. Theorems in Cost.lean: `C108_counting_is_invisible`, `C108_isam`, `C108_alias`, `C108_learned`, `C108_lookup`.
* How: Loops copied with counters and erased again. The height of a tree is read off the sizes of its levels (each a ceiling division of the one below); the separators say not only where the leaf of a key starts but also where it ends, so the scan stops within it; a binary search halves the window.
* Counted copies of the searches; C108_counting_is_invisible: they compute what the plain models compute. The evaluation of the PGM-index or RadixSpline itself is external and not counted; valid means that the window it returns lies within the array and contains the position (C25).

### C109 A query consults logarithmically many shards (proved)

* Model: Structure, Full, Cost. Theorems in Fanout.lean: `C109_any`, `C109_log`, `C109_search`, `Full.C109_concurrent`, `Full.C109_concurrent_log`.
* How: Every level keeps at most shardCap slots in use through copies, tasks, growth and flushes (Cap.lean), serially by induction over the history and concurrently as a property kept by every job (Keeps); heights from C16 and C104; per shard C108.
* C109_any and C109_concurrent hold for every shard class; the logarithmic forms need one that loses records only in pairs (serial: sorted arrays). The scan of the buffer is linear in its records and not part of the claim.

### C110 A VPTree is balanced and cheap to build whatever the points (partial)

* Model: VPCost, VPTree. Theorems in VPAverage.lean, VPCost.lean: `C110_counting_is_invisible`, `C110_build_partial`, `C110_average_partial`, `C110_lookup`, `C110_search`, `C110_false`.
* How: Counted copies of the functions, erased again. The recursion of build_subtree goes to segments of n/2 - 1 and n - n/2 positions, whatever the data, hence depth and distances; quickselect leaves at least the pivot out. For equal distances the pivot is always the first position of the segment (from the specification of partition), hence the lower bound. For the average: different draws put the pivot at different positions (its rank among the distances), so the parts left over by the n - 1 possible pivots (the last position is never drawn) sum to at most 3/4 n^2; the sum over all streams is bounded draw by draw, with the rest of the construction as a continuation.
* False for equal points (or points at equal distances): partition puts them all on one side of the pivot, so selecting the first median of n equal points takes at least (n/2)*(n-1-n/2) comparisons and n/2 nested calls, for every n and every random numbers. Depth, distances computed, lookup and search are proved as claimed; the selection at most n^2 comparisons. Averaged over all random streams, when no two points are equally far from a third, the selections take at most 4*n comparisons per level.

### C111 An index of tries is a set of strings under tagging erases (partial)

* Model: FSTrie, Dynamic. Theorems in FSTagging.lean: `C111_partial`, `C111_returns_partial`, `C111_false_empty`, `C111_false_again`.
* How: Invariant over the history: entries are exactly the inserted records, tagged if erased, dropped only if tagged; keys of a shard strictly increasing, so its trie is exact and the erase tags the right record. Every shard holds at least lwm untagged records minus one per erase, so none becomes empty while there are fewer erases.
* Total for any layout while there are fewer erases than the low watermark; under leveling and tiering, for any number of erases, every answer that is returned is right. Each string is spelled by one record and inserted at most once, before its erase; no key is the literal "". False: erasing all records of a buffer builds a shard whose trie pointer is never set, and the next lookup reads it; a string inserted again after its erase is hidden by the tagged record.

### C112 Distances of points with integer coordinates are right for every integer type (partial)

* Model: IntCoords, Rounding, VPTree. Theorems in IntCoords.lean: `C112_defined_iff`, `C112_partial`, `C112_bytes`, `C112_cosine`, `C112_false`, `C112_false_wraps`, `C112_false_cosine`.
* How: Integer types with promotion, wrapping and signed overflow; the square fits exactly if the difference is at most the integer root of the largest value (case split over the eight types), then the sum and the root round as in C98.
* False: the square of a difference is computed in the promoted integer type; for int, int16_t and uint16_t a difference of 46341 overflows a signed int, which is undefined behaviour, for int64_t one of 3037000500; for uint32_t a difference of 65536 has distance 0. Proved: for signed types and types narrower than int the distance is defined exactly if no coordinates differ by more; within the limits of each type k-NN queries are right up to rounding; coordinates of 8 bits are always within.

### C113 A list of reconstruction tasks counts its records (partial)

* Model: Util. Theorems in Util.lean: `C113_partial`, `C113_short`, `C113_remove`, `C113_smallest`, `C113_read`, `C113_sources`, `C113_false`.
* How: Induction over the calls: total plus what was handed over as tasks is the sum modulo 2^64; the loop finds the first minimum by an invariant over the prefix. Witness by computation.
* False: add_reconstruction(task) does not add to the total, so the total is short by the records of tasks added this way, and after removing such a task it is 2^64 minus them. Proved for all other calls; in general the total plus those records is the sum. Removing from an empty list aborts (by index) or is undefined (smallest).

### C114 Cursors over sorted arrays merge them (proved)

* Model: Util. Theorems in Util.lean: `C114_next`, `C114_advance`, `C114_peek`, `C114_merge`.
* How: get_next computes the first least head (invariant over the prefix of the cursors); the merge by induction over the records left.
* The current cursor of the look-ahead must have a record left; records are compared by a linear order.

### C115 Range samples are independent (partial)

* Model: Sampling. Theorems in SampleLaw.lean: `C115_partial`, `C115_stored_partial`, `C115_exact`, `C115_all_in`, `C115_false`.
* How: Generating functions in an arbitrary commutative semiring: the sum over all streams of the product of the weights of the samples of a round is the n-th power of a sum over everything drawn from (product over the second half of the stream given the sample sizes, then the sample sizes themselves are counts of independent draws of the alias structure). Coefficients by the number of samples give the law of a round given its size; induction over the rounds, whose number is decided by sizes only; a linear functional on polynomials in the records turns it into counts. Witness by evaluation over all streams.
* Generating functions over all streams. False as sequences: the buffer is sampled before the shards, so the order of the result is not random (C115_false). Proved: whatever order-free quantity of the samples is looked at, with or without rejection, given that m records are returned they are m independent uniform draws from the records inserted into the range (C115_partial); after any history, with erases, from everything stored in the range, tombstones counted as copies (C115_stored_partial); without rejection m is always the number asked for (C115_exact); the probability that all lie in a set is the power of its share (C115_all_in).

### C116 Level capacities are those of the layout (partial)

* Model: Capacity, Structure, Rounding. Theorems in Capacity.lean: `C116_partial`, `C116_ops_partial`, `C116_validate_partial`, `C116_pow2_partial`, `C116_false`, `C116_false_inexact`.
* How: the functions that compute capacities copied with a fallible capacity function; every level index they pass is below the height after the operation (a new level is the target of a task that is run), so agreement on those levels makes the runs equal, function by function; products up to 2^53 are exact in 53 bits; heights from C16. Witness by evaluation.
* False for large scale factors: the product does not fit and its conversion is undefined (C116_false). Proved for all layouts, delete policies and shard classes as long as the capacity of the deepest level is at most 2^53 (C116_partial), which follows from hwm * sf^2 * (operations + 1) <= 2^53 by the height bounds of C16 (C116_ops_partial); the check of the tombstone proportion likewise. For scale factors that are powers of two a capacity is exact up to 2^64 and undefined exactly beyond (C116_pow2_partial). pow is a parameter with the contract that representable results are exact.

### C117 Samples from a static structure are independent, in order (proved)

* Model: Sampling, Dynamic. Theorems in StaticLaw.lean: `C117_range`, `C117_weighted`, `C117_pair`.
* How: the structure holds the inserted records in order (C21); each draw reads one number of the stream and has the right law on its own; induction over the draws, the sum over sequences of draws being invariant under permutations of the records.
* Insert-only histories, at least one record in range (C55 otherwise) respectively a positive total weight. The alias structure is a parameter with the contract of being fair; the number of values of a draw is a multiple of what is drawn from.

### C118 Shards and levels are freed exactly when nothing needs them any more (proved)

* Model: Ownership, Snapshot. Theorems in Ownership.lean: `Rc.C118_reconstruction`, `Rc.C118_query`, `Rc.C118_destroy`, `Rc.C118_static`, `Rc.C118_live`, `Rc.C118_empty`.
* How: each count is the number of pointers held (levels by versions, shards by live levels and the caller), an invariant kept by every primitive (multisets); function by function the counted run equals the run of the heap model without counts, which in turn equals the value model (C71); so no counted operation ever meets a freed cell. Liveness is the invariant read backwards.
* Reference counts over the heap of versions, levels and shards (Snapshot); using, copying or releasing a pointer to something freed is undefined behaviour in the model (second example). A reconstruction is one step, since only one runs at a time (C49). Which versions may be retired while queries run is C48 and C79; the memory inside a shard belongs to the shard and is not modelled here.

### C119 The concurrent index is memory safe: sharing and freeing of levels and shards are invisible (proved)

* Model: ConcHeap, Conc, Full, Ownership, Teardown. Theorems in ConcHeap.lean: `CH.C119_refines`, `CH.C119_complete`, `CH.C119_no_ub`, `CH.C119_pinned`, `CH.C119_frozen`, `CH.C119_live`, `CH.C119_teardown`.
* How: simulation between the system with memory and the one with values (Full): the count of a level is the number of existing epochs that contain it, the newest version owns its levels (so the flush changes nothing that an older epoch sees), no level of it has a pending shard before its flush; deletion and creation of epochs follow the protocol invariant of C42-C50.
* The concurrent protocol (Conc, Full) over the heap with reference counts (Ownership), every interleaving. Copying, building and destroying a version is one step each: the counters are atomic, only the one reconstruction in flight (C49) touches the next version, and a query does not copy shared pointers. create_static_structure and tagged deletes are not part of the concurrent model (C118 has them).

### C120 Shards and buffers own their memory (partial)

* Model: ShardMem, VPTree, FSTrie. Theorems in ShardMem.lean: `SM.C120_partial`, `SM.C120_false_fst`, `SM.C120_false`, `SM.C120_false_tombstone`.
* How: a constructor adds exactly the blocks in the members of the new object to the allocated ones (temporaries cancel), a destructor removes exactly these (induction on the tree for VPTree); invariant over any sequence of constructions and destructions: allocated blocks = disjoint union of the blocks of existing objects; false for FSTrie without records by two histories evaluated by the kernel.
* Proved for all classes except an FSTrie in which no record is left. False there: m_fst is in no initialiser list, so deleting such a shard or asking the index for its memory usage reads an indeterminate pointer; a tagging history and a tombstone history reach it.

### C121 get_record_count beside tombstone erases (partial)

* Model: Full, Conc, Structure. Theorems in CountTomb.lean: `Full.C121_partial`, `Full.C121_sorted_partial`, `Full.C121_false`.
* How: the cancellation invariant of C69 for the pinned version, whose slots are the first claimed operations, counted: what is missing are two multisets of equal size, of inserts and of erases; the moment is the one at which the tail was read (C78); witness: the BSM schedule of C69.
* Proved for executions in which flushes copy only finished slots, appends in flight allowed; on BSM if no stretch of at most hwm consecutive operations cancels out completely. False on BSM otherwise: a flushed block that cancels out makes later records vanish. Inserts only, every execution: C73.

### C122 The law of samples drawn beside concurrent inserts (partial)

* Model: Full, Conc, Sampling. Theorems in FullSampleLaw.lean: `Full.C122_range_partial`, `Full.C122_all_in`, `Full.C122_weighted_partial`, `Full.C122_false`.
* How: the laws of C115, C36 and C80 are stated for any index whose view reads its contents and whose stored records are a given list; the snapshot of a pinned version is one (C92), and the list is the claimed inserts at the moment the tail was read (C78); witness: the schedule of C92, counted over all streams.
* Proved for inserts only, executions in which flushes copy only finished slots, once the appends below the tail of the view have finished: given that m samples are returned they are, in any order, independent uniform draws from the records in range whose inserts had taken effect at one moment of the call; the query ends with probability 1; weighted samples likewise if the buffered records of the view have no weight. False when a flush copies an unfinished slot (C122_false), and as sequences (C115_false).

### C123 The project's own index tests hold whatever the random numbers (partial)

* Model: OwnTests, Dynamic. Theorems in OwnMerging.lean, OwnTests.lean: `C123_create`, `C123_inserts`, `C123_range_query_partial`, `C123_tombstone_merging_partial`, `C123_static_structure_tombstones`, `C123_static_structure_tagging_partial`, `C123_false`, `C123_false_tagging`, `C123_false_merging`.
* How: the test loop is modelled with its random choices as parameters; its histories insert each record once and erase it at most once in a later iteration, so no stretch of operations nets out (the last insert of a stretch has no erase in it) and every call is defined (C21_blocks_partial); counts, heights and contents follow from C14, C16, C19, C04, C53 and C21.
* t_create, t_insert, t_debug_insert and t_insert_with_mem_merges hold for any records on every layout and delete policy; t_range_query holds exactly if no further key equals one of the two bounds (C123_false: it fails if the keys drawn are all equal); t_tombstone_merging_01 holds except for leveling with tombstones, where the random choices of the loop can make it fail (C123_false_merging, with the watermarks divided by 100); t_static_structure holds with tombstones on every layout, and with tagging on leveling and tiering whenever the calls are defined (C123_false_tagging: they need not be).

### C124 The project's own shard, range and level tests hold for any records (proved)

* Model: OwnShardTests, SortedShard, Merge, Buffer, Query. Theorems in OwnShardTests.lean: `Own.C124_mbuffer_init`, `Own.C124_shard_init`, `Own.C124_full_cancelation`, `Own.C124_point_lookup`, `Own.C124_range_query`, `Own.C124_range_query_merge`, `Own.C124_range_query_sequential`, `Own.C124_range_query_merge_sequential`, `Own.C124_range_count`, `Own.C124_range_count_merge`, `Own.C124_range_count_sequential`, `Own.C124_level_merge`, `Own.C124_lower_bound`.
* How: the test programs are modelled with their records as parameters; a filled buffer holds the appended entries in order (fill_spec), a shard of entries of one kind is their sorted list with header 0 or 1 (shardOf_uniform); the greedy loop of t_shard_init succeeds on every sorted arrangement of sorted lists (matchLoop_ok); cancelling pairs by induction over the sorted list (mergeLoop_cancel); the mixed buffer from the conservation law and C24 (mbufferInit_spec); lookups, range queries and counts from C28, rqLocal_spec and rcLocal_spec; the level test from C23.
* Every registered test of the four files, for any number of records up to 2^28 and any records. The TrieSpline lookup is for shards that do not have exactly 50 records (the tests use other sizes). t_full_cancelation needs a merge queue that orders equal records by header or by cursor. C124_lower_bound: the unregistered t_lower_bound would fail on the ISAM tree.

### C125 The project's own VPTree and k-NN tests hold whatever the random numbers (partial)

* Model: OwnKnnTests, VPTree, Points. Theorems in OwnKnnTests.lean: `C125_mbuffer_init`, `C125_wss_init`, `C125_point_lookup`, `C125_point_lookup_miss`, `C125_buffer_query`, `C125_knn_query_partial`, `C125_false_tie`, `C125_false_zero`.
* How: the k points of the diagonal nearest to p are shown to be consecutive (the set of the k nearest integers is convex), which with C30 bounds the first one; the buffer scan is followed step by step; for the tie, a search is a sequence of visits beginning with the root's record, and a queue that gives point 2 away last keeps it.
* The constructor, lookup and buffer query tests hold for any points, random numbers and queue (the buffer query whatever the queue does with equal distances). t_knn_query holds for every k >= 1 except k = 2p: there two points are equally far, and C125_false_tie shows a draw of the root with the test's 1000 points and leaves of 100 for which the assertion fails; for k = 0, which the test draws with probability 1/150 in each of its 100 rounds, the search pops an empty queue (C125_false_zero). Distances are exact reals.

### C126 The project's own sampling tests hold whatever the random numbers (proved)

* Model: OwnSampleTests, Sampling, OwnShardTests. Theorems in OwnSampleTests.lean: `C126_irs`, `C126_buffer_irs`, `C126_irs_merge`, `C126_wss`, `C126_buffer_wss`, `C126_buffer_wss_one`.
* How: the shards and buffers of the tests are those of C124; exact bounds of the ISAM tree and the contracts of generator and alias structure then bound every draw, and the sizes handed out by distribute_query add up to the requested sample.
* For any records, ranges, sample sizes and random streams; the alias structure meets its contract (an index of positive weight is drawn) and the generator accepts bounds up to the number of records. The range of the shard tests holds a record and the weighted records have some weight, as in the tests. C126_buffer_wss_one shows that the size condition of the weighted buffer test is needed: with one record the program aborts. Weights and their sum are natural numbers (no 32-bit wraparound).

### C127 Concurrent appends to a fresh buffer are linearizable and always return (proved)

* Model: MtAppend, Buffer. Theorems in MtAppend.lean: `C127_linearizable`, `C127_count`, `C127_all`, `C127_terminates`.
* How: the claimed positions are kept as a ghost sequence of thread and record; an invariant says for each thread which of its appends are in it, how far its current slot is written and which tombstones are not counted yet; the sequential order is this sequence followed by the refused appends. Termination: a potential that charges two steps per thread to every claimed position, for the exchanges it can make fail.
* For any number of threads, any records and any interleaving of the atomic operations, on a freshly created buffer without concurrent flushes or views (those are C42-C46, where the same code is shown to fail). Sequentially consistent atomics; the tombstone filter, a shared non-atomic structure, is left out; positions below 2^31.

### C128 delete_record on a buffer view tags exactly the first equal record of the view (partial)

* Model: Views, Buffer. Theorems in ViewDelete.lean: `C128_partial`, `C128_list_partial`, `C128_false_empty`, `C128_empty`.
* How: the two search loops visit the slots of the view in the order of its positions; two positions of live views share no slot because everything from the oldest view to the tail fits in the ring; the list version by induction over the calls. An empty view searches the whole ring: witness.
* False for a view without records: its wrapped start and end are equal, so delete_record searches the whole ring and may return true for a record that has left the buffer (C128_false_empty; exactly when, in C128_empty). Proved for every view with at least one record, of a buffer used by one thread whose high watermark stays at most half its capacity (the framework's case; C95_false_capacity is the counterexample for others).

### C129 The project's buffer and view tests hold for any watermarks and records (proved)

* Model: OwnViewTests, Views, BufferApi. Theorems in OwnViewTests.lean: `C129_advance`, `C129_get`, `C129_truncate`.
* How: a test is a list of calls and observations on the model; the append loops by induction, the rest line by line with the invariant of C95 for what views read and of C84 for the counters and the tombstone filter.
* The programs of t_insert, t_truncate, t_advance_head and t_bview_get, with any watermarks and records that meet the tests' own conditions (stated as hypotheses; the bound of C129_advance is needed, see the example beside it). The Bloom filter of the tombstones is any filter without false negatives. t_bview_delete is C128, t_multithreaded_insert is C127.

### C130 The project's string shard and point lookup tests hold for any word list (proved)

* Model: OwnStringTests, FSTrie, Louds. Theorems in OwnStringTests.lean: `Own.C130_mbuffer_init`, `Own.C130_shard_init`, `Own.C130_point_lookup`, `Own.C130_buffer_lookup`.
* How: the effect of a list of delete_record calls on the entries of a buffer of different records by induction; what the constructor stores is the sorted rest; merging without tombstones is a sorted permutation; lookups by the contract of the trie.
* The programs of tests/include/shard_string.h and tests/include/pointlookup.h on FSTrie and LoudsPatricia, for any records that have what the word list of the tests has (different keys for the lookups, no key that is the literal empty string). The trie meets the contract Trie.Exact. An example shows that the miss checked by t_buffer_point_lookup would also be reported if the key were stored.

## Axioms of the theorems in MANIFEST.json

Output of `#print axioms`, grouped (namespace `DE` left out).

* none: C40_wrapped_eq_false, Sched.C62_false, Sched.C63_false.
* propext: C107_false_wrap, C107_false_zero, C113_false, C113_read, C113_remove, C116_false_inexact, C31_false_empty, C31_false_null, C31_false_tie, C40_record, C40_weighted, C40_wrapped_partial, C97_false_zero, Conc.C44_false, Conc.C46_false, Conc.C46_false_wrap, Conc.C50_false, Conc.C58_false, Conc.C58_false_assert, Conc.C59_false, Tail32.C47_false, Tail32.C47_false_slot.
* propext, Quot.sound: C01_lwm_zero, C01_serial_inserts_succeed, C06_false, C08_false, C102_false_empty, C102_false_erased, C102_false_literal, C106_counting_is_invisible, C107_core_partial, C10_false, C110_counting_is_invisible, C111_false_again, C111_false_empty, C113_smallest, C113_sources, C116_false, C11_false, C123_create, C123_false_merging, C123_false_tagging, C125_mbuffer_init, C125_wss_init, C128_false_empty, C12_false, C13_false, C14_stored, C15_false, C18_false, C21_false, C22_false, C22_false_lookup, C22_false_tagging, C22_reccnt_unused, C24_false, C27_alias, C33_false, C35_false, C37_false_many, C38_false_buffer, C38_false_tagging, C38_false_tiering, C38_false_value, C39_false, C39_partial, C40_string, C41_view_reads_back, C53_false, C54_false_tagging, C54_false_tombstones, C65_false_literal, C65_false_pointer, C66_false_duplicate, C66_false_empty, C84_buffer_partial, C84_false, C84_truncate_stuck, C85_false, C85_pgm_same, C85_triespline_empty, C85_triespline_same, C86_false, C86_isam_ub, C86_level_partial, C87_false, C88_false, C89_false, C89_vptree_partial, C95_false_capacity, C95_false_copy, C95_false_raised, C95_move, C98_not_exact, Conc.C43_false, Conc.C45_false, Conc.C50_notify_partial, Conc.C50_returns_partial, Conc.C59_false_pool, Conc.C60_false, Conc.C79_once, Conc.C81_cause, Full.C103_overlap, Full.C67_false, Full.C67_false_lost, Full.C74_false, Full.C75_false, Full.C76_false, Full.C77_false, Full.C92_false, Own.C130_buffer_lookup, Own.C130_point_lookup, SM.C120_partial, Sched.C52_false_max, Sched.C52_once, Sched.C52_serial, Sched.C62_partial, Sched.C63_bounded, Sched.C63_heard, Sched.C63_partial, Snap.C61_false, Stats.C82_counts, Stats.C82_false, Stats.C82_largest_apart_partial, Stats.C82_largest_partial.
* propext, Classical.choice, Quot.sound: C02_conservation, C03_false, C03_odd_watermark_partial, C03_partial, C04_insert_only_exact, C05_completeness, C06_old_erase_partial, C06_partial, C07_only_inserted_in_range, C08_partial, C09_tagging_count, C100_any_history, C100_builtin, C100_insert_only, C100_tombstones, C102_defined_partial, C102_louds_partial, C102_net_partial, C102_partial, C106_bsm, C106_bsm_log, C106_leveling, C106_leveling_log, C106_tiering, C106_tiering_log, C107_partial, C108_alias, C108_counting_is_invisible, C108_isam, C108_learned, C108_lookup, C109_any, C109_log, C109_search, C10_history_partial, C10_partial, C110_average_partial, C110_build_partial, C110_false, C110_lookup, C110_search, C111_partial, C111_returns_partial, C112_bytes, C112_cosine, C112_defined_iff, C112_false, C112_false_cosine, C112_false_wraps, C112_partial, C113_partial, C113_short, C114_advance, C114_merge, C114_next, C114_peek, C115_all_in, C115_exact, C115_false, C115_partial, C115_stored_partial, C116_ops_partial, C116_partial, C116_pow2_partial, C116_validate_partial, C117_pair, C117_range, C117_weighted, C11_partial, C123_false, C123_inserts, C123_range_query_partial, C123_static_structure_tagging_partial, C123_static_structure_tombstones, C123_tombstone_merging_partial, C125_buffer_query, C125_false_tie, C125_false_zero, C125_knn_query_partial, C125_point_lookup, C125_point_lookup_miss, C126_buffer_irs, C126_buffer_wss, C126_buffer_wss_one, C126_irs, C126_irs_merge, C126_wss, C127_all, C127_count, C127_linearizable, C127_terminates, C128_empty, C128_list_partial, C128_partial, C129_advance, C129_get, C129_truncate, C12_first_erase_partial, C12_fresh_false, C12_partial, C13_any_partial, C13_partial, C14_insert_only, C15_excess_partial, C15_partial, C15_tagging, C16_bsm, C16_bsm_insert_only, C16_height_monotone, C16_leveling, C16_tiering, C17_tiering_capacity, C18_partial, C19_binary_counter, C19_bound, C20_no_abort, C21_blocks_partial, C21_insert_only, C21_net_partial, C21_single_cycle_partial, C21_tagging_partial, C22_blocks_partial, C22_more_inserts_partial, C22_partial, C23_merge_law, C24_partial, C25_isam, C26_false_triespline, C26_pgm, C26_searches_sound, C26_triespline_partial, C28_false, C28_isam_partial, C28_pgm_partial, C28_triespline_partial, C29_vptree, C30_knn_shard, C31_clear_partial, C31_false, C31_hmap, C31_small_partial, C31_sound, C32_inserted, C32_knn_index, C33_buffer_partial, C34_in_range, C34_insert_only, C35_partial, C36_almost_surely_partial, C36_false, C36_false_rejection, C36_partial, C36_probability_partial, C37_exact_partial, C37_false_newest, C37_false_single, C37_stored_partial, C38_insert_only_partial, C38_single_shard_partial, C38_tagging_erased_partial, C38_tagging_live_partial, C38_tombstone_live_partial, C40_point, C53_partial, C53_tagging, C54_false_double, C54_law_partial, C54_share_partial, C55_false, C55_static_partial, C56_euclid, C57_false, C57_false_metric, C57_least_similar_partial, C64_rejection, C64_rejection_many, C64_unbiased, C65_partial, C66_partial, C80_false, C80_false_double, C80_index_partial, C80_joint_partial, C80_static_partial, C80_stored_partial, C83_recency, C85_pgm_index, C85_range_partial, C85_triespline_index_partial, C86_lookups, C87_all_named_partial, C87_erased_returned, C88_leveling_fails, C88_partial, C89_alias_false, C89_isam_partial, C95, C95_available, C95_copy_partial, C95_counts, C95_reads_partial, C95_view_partial, C97_compare, C97_false_nan, C97_false_nan_lookup, C97_hash_partial, C97_lookup_partial, C97_order_partial, C98_euclid, C98_inserted, C98_knn_index, C99_false, C99_partial, CH.C119_complete, CH.C119_frozen, CH.C119_live, CH.C119_no_ub, CH.C119_pinned, CH.C119_refines, CH.C119_teardown, Conc.C42_claims, Conc.C42_monotone, Conc.C42_watermark, Conc.C42_writers, Conc.C43_newer_partial, Conc.C43_partial, Conc.C44_consequence, Conc.C44_partial, Conc.C45_partial, Conc.C46_alone_partial, Conc.C46_first_partial, Conc.C46_partial, Conc.C48_alive, Conc.C48_no_ub, Conc.C49_assert, Conc.C49_one, Conc.C50_asleep, Conc.C50_pending_partial, Conc.C58_consequence, Conc.C58_partial, Conc.C59_nonempty, Conc.C59_partial, Conc.C60_exact, Conc.C60_false_pool, Conc.C60_false_stale, Conc.C60_partial, Conc.C60_recent, Conc.C70, Conc.C71_false, Conc.C71_false_view, Conc.C71_partial, Conc.C72, Conc.C79_delete, Conc.C79_destroy, Conc.C79_three, Conc.C81_all, Conc.C81_each, Conc.C93, Conc.C93_counts, Conc.C93_wedged, Conc.C94, Conc.C94_abort, Conc.C94_insert, Conc.C94_query, Conc.C94_rebuild, Full.C101_any_partial, Full.C101_false, Full.C101_partial, Full.C101_tombstones_partial, Full.C103_order, Full.C103_published, Full.C104_bsm, Full.C104_leveling, Full.C104_tiering, Full.C109_concurrent, Full.C109_concurrent_log, Full.C121_false, Full.C121_partial, Full.C121_sorted_partial, Full.C122_all_in, Full.C122_false, Full.C122_range_partial, Full.C122_weighted_partial, Full.C67_any_partial, Full.C67_complete_partial, Full.C67_partial, Full.C67_progress, Full.C68_false, Full.C68_overread, Full.C68_partial, Full.C68_tombstones_partial, Full.C69_false, Full.C69_false_bsm, Full.C69_partial, Full.C73_bounds, Full.C73_quiet, Full.C73_record_count, Full.C73_sorted, Full.C73_vptree, Full.C74_monotone_partial, Full.C74_own_writes_partial, Full.C75_partial, Full.C76_partial, Full.C77_partial, Full.C78_count_partial, Full.C78_false, Full.C78_knn_partial, Full.C78_lookup_partial, Full.C78_range_partial, Full.C90_count_partial, Full.C90_false, Full.C90_knn_partial, Full.C90_lookup_partial, Full.C90_range_partial, Full.C92_range_partial, Full.C92_weighted_partial, Own.C124_full_cancelation, Own.C124_level_merge, Own.C124_lower_bound, Own.C124_mbuffer_init, Own.C124_point_lookup, Own.C124_range_count, Own.C124_range_count_merge, Own.C124_range_count_sequential, Own.C124_range_query, Own.C124_range_query_merge, Own.C124_range_query_merge_sequential, Own.C124_range_query_sequential, Own.C124_shard_init, Own.C130_mbuffer_init, Own.C130_shard_init, Rc.C118_destroy, Rc.C118_empty, Rc.C118_live, Rc.C118_query, Rc.C118_reconstruction, Rc.C118_static, SM.C120_false, SM.C120_false_fst, SM.C120_false_tombstone, Sched.C52_partial, SerialRun.C91_insert_query_session, SerialRun.C91_serial_range_query, SerialRun.C91_serial_session, SerialRun.C96_tagging_answers, SerialRun.C96_tagging_session, Snap.C51_error, Snap.C51_stable, Snap.C51_tags, Snap.C51_value, Snap.C61_partial, Tail32.C47_exact, Tail32.C47_false_half, Tail32.C47_partial, Tail32.C47_pow2_partial, Torn.C105_false, Torn.C105_finished_partial, Torn.C105_flush_partial, Torn.C105_race_partial, Torn.C105_steps, Torn.C105_visible_partial, Torn.C105_writers_partial, aliasStd_fair.
