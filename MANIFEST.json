{
 "claims": [
  {
   "property": "C01",
   "status": "proved",
   "theorems": [
    "DE.C01_serial_inserts_succeed",
    "DE.C01_lwm_zero"
   ],
   "note": "Any layout/shard class; shown for histories that run without fault."
  },
  {
   "property": "C02",
   "status": "proved",
   "theorems": [
    "DE.C02_conservation"
   ],
   "note": "Leveling and tiering, sorted shards, arbitrary priority queue."
  },
  {
   "property": "C03",
   "status": "partial",
   "theorems": [
    "DE.C03_partial",
    "DE.C03_odd_watermark_partial",
    "DE.C03_false"
   ],
   "note": "False of the code; proved for histories without a void block and for every history with an odd watermark."
  },
  {
   "property": "C04",
   "status": "proved",
   "theorems": [
    "DE.C04_insert_only_exact"
   ],
   "note": ""
  },
  {
   "property": "C05",
   "status": "proved",
   "theorems": [
    "DE.C05_completeness"
   ],
   "note": "BSM under the no-void-block condition the statement excludes."
  },
  {
   "property": "C06",
   "status": "partial",
   "theorems": [
    "DE.C06_partial",
    "DE.C06_old_erase_partial",
    "DE.C06_false"
   ],
   "note": "False of the code while the tombstone is buffered; proved for erases at least lwm operations old and for record-sorted in-range buffers."
  },
  {
   "property": "C07",
   "status": "proved",
   "theorems": [
    "DE.C07_only_inserted_in_range"
   ],
   "note": ""
  },
  {
   "property": "C08",
   "status": "partial",
   "theorems": [
    "DE.C08_partial",
    "DE.C08_false"
   ],
   "note": "False of the code: tagged entries still stored are returned."
  },
  {
   "property": "C09",
   "status": "proved",
   "theorems": [
    "DE.C09_tagging_count"
   ],
   "note": ""
  },
  {
   "property": "C10",
   "status": "partial",
   "theorems": [
    "DE.C10_partial",
    "DE.C10_history_partial",
    "DE.C10_false"
   ],
   "note": "False of the code: stored tombstones are not subtracted; what the count is instead is proved."
  },
  {
   "property": "C11",
   "status": "partial",
   "theorems": [
    "DE.C11_partial",
    "DE.C11_false"
   ],
   "note": "False of the code: UB when some shard has no key at or above the lower end; defined exactly otherwise."
  },
  {
   "property": "C12",
   "status": "partial",
   "theorems": [
    "DE.C12_partial",
    "DE.C12_first_erase_partial",
    "DE.C12_false",
    "DE.C12_fresh_false"
   ],
   "note": "False of the code: stale ring slots make erase return 1 for absent records; a truthful answer proved elsewhere."
  },
  {
   "property": "C13",
   "status": "partial",
   "theorems": [
    "DE.C13_partial",
    "DE.C13_any_partial",
    "DE.C13_false"
   ],
   "note": "False of the code for repeated erases; proved for the first erase and, for any erase, that at most one entry is tagged."
  },
  {
   "property": "C14",
   "status": "proved",
   "theorems": [
    "DE.C14_stored",
    "DE.C14_insert_only"
   ],
   "note": ""
  },
  {
   "property": "C15",
   "status": "partial",
   "theorems": [
    "DE.C15_tagging",
    "DE.C15_partial",
    "DE.C15_excess_partial",
    "DE.C15_false"
   ],
   "note": "False of the code: the buffer's tombstone counter is never reset; the exact excess is proved."
  },
  {
   "property": "C16",
   "status": "proved",
   "theorems": [
    "DE.C16_height_monotone",
    "DE.C16_tiering",
    "DE.C16_leveling",
    "DE.C16_bsm",
    "DE.C16_bsm_insert_only"
   ],
   "note": "Tiering: bijective base-sf digits; leveling: logarithmic in the number of buffers flushed; BSM: exact for insert-only histories, logarithmic bound for all."
  },
  {
   "property": "C17",
   "status": "proved",
   "theorems": [
    "DE.C17_tiering_capacity"
   ],
   "note": ""
  },
  {
   "property": "C18",
   "status": "partial",
   "theorems": [
    "DE.C18_partial",
    "DE.C18_false"
   ],
   "note": "False of the code: level 2 can hold 18 records at capacity 16; the bound that holds is the sum of the capacities of levels 0..i."
  },
  {
   "property": "C19",
   "status": "proved",
   "theorems": [
    "DE.C19_binary_counter",
    "DE.C19_bound"
   ],
   "note": ""
  },
  {
   "property": "C20",
   "status": "proved",
   "theorems": [
    "DE.C20_no_abort"
   ],
   "note": "No assert of the framework fails in any history, layout and delete policy."
  },
  {
   "property": "C21",
   "status": "partial",
   "theorems": [
    "DE.C21_insert_only",
    "DE.C21_net_partial",
    "DE.C21_single_cycle_partial",
    "DE.C21_tagging_partial",
    "DE.C21_blocks_partial",
    "DE.C21_false"
   ],
   "note": "Undefined when a buffer cancels out completely; defined as long as no run of whole buffer blocks, and not the buffered operations, cancel out (C21_blocks_partial); otherwise net multiplicities, order and single-cycle exactness proved."
  },
  {
   "property": "C22",
   "status": "partial",
   "theorems": [
    "DE.C22_partial",
    "DE.C22_blocks_partial",
    "DE.C22_more_inserts_partial",
    "DE.C22_false",
    "DE.C22_false_tagging",
    "DE.C22_false_lookup",
    "DE.C22_reccnt_unused"
   ],
   "note": "False of the code: shards that become empty and point_lookup past the end; proved with tombstones when no run of whole buffer blocks nets out to nothing, in particular when no record is both inserted and erased or every block has more inserts than erases. One read of an uninitialised field (ReconstructionTask::reccnt for BSM) is not modelled as UB; C22_reccnt_unused shows that its value has no effect."
  },
  {
   "property": "C23",
   "status": "proved",
   "theorems": [
    "DE.C23_merge_law"
   ],
   "note": ""
  },
  {
   "property": "C24",
   "status": "partial",
   "theorems": [
    "DE.C24_partial",
    "DE.C24_false"
   ],
   "note": "False when the buffer view wraps around the ring; proved otherwise."
  },
  {
   "property": "C25",
   "status": "proved",
   "theorems": [
    "DE.C25_isam"
   ],
   "note": "Both bounds exact for all sizes and fanouts; nodes built = nodes allocated."
  },
  {
   "property": "C26",
   "status": "partial",
   "theorems": [
    "DE.C26_pgm",
    "DE.C26_triespline_partial",
    "DE.C26_false_triespline",
    "DE.C26_searches_sound"
   ],
   "note": "PGM proved; TrieSpline false for exactly 50 records (index not built but used), proved for every other size. The external index is a parameter with a validity contract."
  },
  {
   "property": "C27",
   "status": "proved",
   "theorems": [
    "DE.C27_alias"
   ],
   "note": ""
  },
  {
   "property": "C28",
   "status": "partial",
   "theorems": [
    "DE.C28_isam_partial",
    "DE.C28_pgm_partial",
    "DE.C28_triespline_partial",
    "DE.C28_false"
   ],
   "note": "Found iff stored; false in that one slot past the array is read for a record greater than all stored ones with a stored key (exact characterisation proved)."
  },
  {
   "property": "C29",
   "status": "proved",
   "theorems": [
    "DE.C29_vptree"
   ],
   "note": "Any distance function, leaf size and random stream."
  },
  {
   "property": "C30",
   "status": "proved",
   "theorems": [
    "DE.C30_knn_shard"
   ],
   "note": "k >= 1 and a symmetric distance with the triangle inequality in an ordered group; rounding not modelled."
  },
  {
   "property": "C31",
   "status": "partial",
   "theorems": [
    "DE.C31_sound",
    "DE.C31_clear_partial",
    "DE.C31_small_partial",
    "DE.C31_hmap",
    "DE.C31_false",
    "DE.C31_false_tie",
    "DE.C31_false_null",
    "DE.C31_false_empty"
   ],
   "note": "False without the hash map: every shard of at least 2*LEAFSZ+4 distinct records contains a stored record that is not found. Exact with the hash map and for shards of one leaf."
  },
  {
   "property": "C32",
   "status": "proved",
   "theorems": [
    "DE.C32_knn_index",
    "DE.C32_inserted"
   ],
   "note": ""
  },
  {
   "property": "C33",
   "status": "partial",
   "theorems": [
    "DE.C33_buffer_partial",
    "DE.C33_false"
   ],
   "note": "False for records in shards (tags are ignored by the tree search); proved for records erased while still in the buffer."
  },
  {
   "property": "C34",
   "status": "proved",
   "theorems": [
    "DE.C34_in_range",
    "DE.C34_insert_only"
   ],
   "note": "Any history, layout, delete policy, random stream and range for ISAM shards, given that psudb::Alias never draws an index of weight 0 and sizes fit 64 bits: everything returned is stored and in range. For insert-only histories and lower <= upper the query also never faults."
  },
  {
   "property": "C35",
   "status": "partial",
   "theorems": [
    "DE.C35_partial",
    "DE.C34_insert_only",
    "DE.C35_false"
   ],
   "note": "Never more than requested; exactly as many when no draw can be rejected. False with rejection sampling: repeat() subtracts the whole output again in every round, so fewer samples are returned (witness: 1 of 4)."
  },
  {
   "property": "C36",
   "status": "partial",
   "theorems": [
    "DE.C36_partial",
    "DE.C36_probability_partial",
    "DE.C36_almost_surely_partial",
    "DE.C36_false",
    "DE.C36_false_rejection"
   ],
   "note": "Proved to run forever whenever no stored record is in range (also on an empty index), for every random stream; proved to end in one round when nothing can be rejected and within n+1 rounds of the first drawn sample. With N of T stored entries in range, after any history, the probability of running for more than r+n+1 rounds is at most (1-N/T)^(nr), so the query ends with probability 1; it is not 0 (C36_false_rejection)."
  },
  {
   "property": "C37",
   "status": "partial",
   "theorems": [
    "DE.C37_stored_partial",
    "DE.C37_exact_partial",
    "DE.C37_false_newest",
    "DE.C37_false_single",
    "DE.C37_false_many"
   ],
   "note": "Returned records are stored and not tagged; exact number when buffered records have equal weight. False: the newest buffered record is never drawn (cutoff is count-1), a single buffered record aborts the generator, and sample sizes pile up over rounds (8 returned for 4)."
  },
  {
   "property": "C38",
   "status": "partial",
   "theorems": [
    "DE.C38_insert_only_partial",
    "DE.C38_tagging_live_partial",
    "DE.C38_tagging_erased_partial",
    "DE.C38_tombstone_live_partial",
    "DE.C38_single_shard_partial",
    "DE.C38_false_buffer",
    "DE.C38_false_tiering",
    "DE.C38_false_tagging",
    "DE.C38_false_value"
   ],
   "note": "Exact for insert-only histories (any layout, any exact shard lookup) and for tagging with unique keys. With tombstones: live records with a unique key are returned on any layout; on leveling and BSM a record inserted at least lwm operations ago is returned iff it was not erased. False in general: with tombstones an erased record is still returned (its own copy comes first in the buffer, or sits in an older shard of a tiering level, which is asked first); with tagging a tagged copy hides a re-inserted one; and the sorted shards are asked for value 0, missing other values; concrete witnesses are proved."
  },
  {
   "property": "C39",
   "status": "partial",
   "theorems": [
    "DE.C39_partial",
    "DE.C39_false"
   ],
   "note": "set_tombstone(false) zeroes the header: refuted; every other operation proved."
  },
  {
   "property": "C40",
   "status": "partial",
   "theorems": [
    "DE.C40_record",
    "DE.C40_weighted",
    "DE.C40_wrapped_partial",
    "DE.C40_string",
    "DE.C40_point",
    "DE.C40_wrapped_eq_false"
   ],
   "note": "Wrapped::operator== is not the equality of operator<."
  },
  {
   "property": "C41",
   "status": "proved",
   "theorems": [
    "DE.C41_view_reads_back"
   ],
   "note": ""
  },
  {
   "property": "C42",
   "status": "proved",
   "theorems": [
    "DE.Conc.C42_watermark",
    "DE.Conc.C42_claims",
    "DE.Conc.C42_writers",
    "DE.Conc.C42_monotone"
   ],
   "note": "For any number of threads and every interleaving of the transition system of inserts, queries and reconstructions."
  },
  {
   "property": "C43",
   "status": "partial",
   "theorems": [
    "DE.Conc.C43_false",
    "DE.Conc.C43_newer_partial",
    "DE.Conc.C43_partial"
   ],
   "note": "False: an append that claimed its slot before a flush may write it a whole round later, into a slot of a newer view. Proved: no append claiming a later position than the view ever writes into it (all executions), and the full statement in executions whose flushes copy only finished slots."
  },
  {
   "property": "C44",
   "status": "partial",
   "theorems": [
    "DE.Conc.C44_false",
    "DE.Conc.C44_partial",
    "DE.Conc.C44_consequence"
   ],
   "note": "False: a head advance between the two loads of release_head_reference makes it decrement the new head. Proved: that is the only wrong case, and after it the head never advances again."
  },
  {
   "property": "C45",
   "status": "partial",
   "theorems": [
    "DE.Conc.C45_false",
    "DE.Conc.C45_partial"
   ],
   "note": "False: a flush may copy a slot that has been claimed but not written. Proved for executions whose flushes copy only finished slots."
  },
  {
   "property": "C46",
   "status": "partial",
   "theorems": [
    "DE.Conc.C46_false",
    "DE.Conc.C46_false_wrap",
    "DE.Conc.C46_partial",
    "DE.Conc.C46_first_partial",
    "DE.Conc.C46_alone_partial"
   ],
   "note": "False twice: after a failed CAS the absolute tail is compared with the watermark, and a flush between the two loads makes tail - head wrap. Proved: with the head fixed during the call, failure with a non-full buffer happens only after a lost CAS race and an earlier flush; the full statement before the first flush; and, whatever flushes do, the full statement for a call during which no other append takes a position."
  },
  {
   "property": "C48",
   "status": "proved",
   "theorems": [
    "DE.Conc.C48_alive",
    "DE.Conc.C48_no_ub"
   ],
   "note": "No thread ever uses a deleted epoch or version; every interleaving."
  },
  {
   "property": "C49",
   "status": "proved",
   "theorems": [
    "DE.Conc.C49_one",
    "DE.Conc.C49_assert"
   ],
   "note": ""
  },
  {
   "property": "C50",
   "status": "partial",
   "theorems": [
    "DE.Conc.C50_false",
    "DE.Conc.C50_asleep",
    "DE.Conc.C50_notify_partial",
    "DE.Conc.C50_pending_partial",
    "DE.Conc.C50_returns_partial"
   ],
   "note": "False: the waiter tests m_next_epoch without holding the mutex and then waits without a predicate, so it can fall asleep after the notification. Proved: a pending transition always has a thread that will notify, notify wakes every sleeper, an awake waiter returns when nothing is pending."
  },
  {
   "property": "C47",
   "status": "partial",
   "theorems": [
    "DE.Tail32.C47_exact",
    "DE.Tail32.C47_partial",
    "DE.Tail32.C47_pow2_partial",
    "DE.Tail32.C47_false",
    "DE.Tail32.C47_false_slot",
    "DE.Tail32.C47_false_half"
   ],
   "note": "False: the tail is narrowed to int32_t. Position 2^32-1 fails for every capacity, and from 2^31 on the slot is wrong unless the capacity divides 2^64-2^32. Proved exactly when it is right; in particular below 2^31."
  },
  {
   "property": "C51",
   "status": "proved",
   "theorems": [
    "DE.Snap.C51_stable",
    "DE.Snap.C51_tags",
    "DE.Snap.C51_value",
    "DE.Snap.C51_error"
   ],
   "note": "Heap model of the shared_ptr structure; the only change visible through an old version are delete tags set by erase."
  },
  {
   "property": "C52",
   "status": "partial",
   "theorems": [
    "DE.Sched.C52_partial",
    "DE.Sched.C52_once",
    "DE.Sched.C52_false_max",
    "DE.Sched.C52_serial"
   ],
   "note": "Proved if the external LockedPriorityQueue hands out a least task with respect to operator<; false if it hands out a greatest one like std::priority_queue. Each job is handed out at most once under either."
  },
  {
   "property": "C53",
   "status": "partial",
   "theorems": [
    "DE.C53_partial",
    "DE.C53_tagging",
    "DE.C53_false"
   ],
   "note": "False under leveling with tombstones; proved for tiering, BSM and for tagging on every layout."
  },
  {
   "property": "C54",
   "status": "partial",
   "theorems": [
    "DE.C54_law_partial",
    "DE.C54_share_partial",
    "DE.C54_false_double",
    "DE.C54_false_tagging",
    "DE.C54_false_tombstones",
    "DE.C34_insert_only"
   ],
   "note": "False for both delete policies: IRS filters neither tagged records nor tombstones. What holds after any history is proved exactly: given their number the samples are independent uniform draws from all stored entries in range, so a record is returned in proportion to its stored copies and tombstones (C54_law_partial, C54_share_partial). So erasing with a tombstone can double the share of the erased record (C54_false_double)."
  },
  {
   "property": "C55",
   "status": "partial",
   "theorems": [
    "DE.C55_static_partial",
    "DE.C55_false"
   ],
   "note": "Exact when some record is in range; otherwise the record after the range is returned sample_size times."
  },
  {
   "property": "C56",
   "status": "proved",
   "theorems": [
    "DE.C56_euclid"
   ],
   "note": "Exact real arithmetic."
  },
  {
   "property": "C57",
   "status": "partial",
   "theorems": [
    "DE.C57_false",
    "DE.C57_false_metric",
    "DE.C57_least_similar_partial"
   ],
   "note": "False: the distance is the similarity, so the least similar records are returned; it is no metric, so the tree search is not covered."
  },
  {
   "property": "C58",
   "status": "partial",
   "theorems": [
    "DE.Conc.C58_false",
    "DE.Conc.C58_false_assert",
    "DE.Conc.C58_partial",
    "DE.Conc.C58_consequence"
   ],
   "note": "False: an epoch transition between the loads of end_job makes it decrement (or assert on) the new epoch. Proved: that is the only wrong case, and after it the old epoch is never retired and no flush completes."
  },
  {
   "property": "C59",
   "status": "partial",
   "theorems": [
    "DE.Conc.C59_false",
    "DE.Conc.C59_partial",
    "DE.Conc.C59_nonempty",
    "DE.Conc.C59_false_pool"
   ],
   "note": "False: a reconstruction scheduled by a delayed inserter flushes an empty buffer. Proved: the only failing assertions are that one and the one of C58."
  },
  {
   "property": "C60",
   "status": "partial",
   "theorems": [
    "DE.Conc.C60_false",
    "DE.Conc.C60_false_stale",
    "DE.Conc.C60_partial",
    "DE.Conc.C60_exact",
    "DE.Conc.C60_recent",
    "DE.Conc.C60_false_pool"
   ],
   "note": "False because of slots claimed but not written. Proved for executions whose flushes copy only finished slots; exact if moreover all appends below the view's tail have finished."
  },
  {
   "property": "C61",
   "status": "partial",
   "theorems": [
    "DE.Snap.C61_false",
    "DE.Snap.C61_partial"
   ],
   "note": "False: a tag set in a shard after it was merged is not carried to the merged shard. Proved: the erase tags the record in one shard object; every version referring to this shard sees the tag, all others are unchanged. A static_assert restricts tagging to SerialScheduler, so the interleaving needs a second client thread."
  },
  {
   "property": "C62",
   "status": "partial",
   "theorems": [
    "DE.Sched.C62_false",
    "DE.Sched.C62_partial"
   ],
   "note": "False: shutdown stops the pool without looking at the task queue. Proved: every job is either finished or still in the task queue."
  },
  {
   "property": "C63",
   "status": "partial",
   "theorems": [
    "DE.Sched.C63_false",
    "DE.Sched.C63_partial",
    "DE.Sched.C63_bounded",
    "DE.Sched.C63_heard"
   ],
   "note": "False: the flag is tested without the mutex and the wait has no predicate, so the scheduler thread can sleep after the last notification and the destructor's join blocks. Proved: this is the only way to block; otherwise at most a bounded number of steps follow the shutdown."
  },
  {
   "property": "C64",
   "status": "proved",
   "theorems": [
    "DE.C64_unbiased",
    "DE.C64_rejection",
    "DE.C64_rejection_many",
    "DE.aliasStd_fair"
   ],
   "note": "Counting over all streams of uniform draws; the alias structure is a parameter with the contract of being fair, met by a straightforward one. With rejection the number of samples returned may be less than asked for (C35); C64_rejection_many is about the samples that are returned."
  },
  {
   "property": "C65",
   "status": "partial",
   "theorems": [
    "DE.C65_partial",
    "DE.C65_false_pointer",
    "DE.C65_false_literal"
   ],
   "note": "False: the buffer compares char pointers, not contents, and a key equal to the literal \"\" is dropped at a flush. Proved for inserts with distinct keys, looked up through the inserted pointer. Missing: histories with erases (tagging erases: C111)."
  },
  {
   "property": "C66",
   "status": "partial",
   "theorems": [
    "DE.C66_partial",
    "DE.C66_false_duplicate",
    "DE.C66_false_empty"
   ],
   "note": "False: the constructor from a buffer does not cancel, so an insert and an erase of one key give the key twice; a merge cancelling everything leaves m_fst uninitialised and a lookup reads it. Proved for inserts with distinct keys."
  },
  {
   "property": "C67",
   "status": "partial",
   "theorems": [
    "DE.Full.C67_partial",
    "DE.Full.C67_complete_partial",
    "DE.Full.C67_any_partial",
    "DE.Full.C67_progress",
    "DE.Full.C67_false",
    "DE.Full.C67_false_lost"
   ],
   "note": "The concurrent protocol composed with the real level structures. False: a flush that copies a claimed but unwritten slot loses the record. Proved when flushes copy only finished slots: exact if the appends below the view's tail have finished, complete for the finished ones in any case. In every execution the query is defined and returns inserted records and initial slot contents only, and reconstructions fail only where the protocol does or on an empty block (C59). Inserts only; with erases see C69."
  },
  {
   "property": "C68",
   "status": "partial",
   "theorems": [
    "DE.Full.C68_partial",
    "DE.Full.C68_tombstones_partial",
    "DE.Full.C68_overread",
    "DE.Full.C68_false"
   ],
   "note": "False: a view on a superseded head can cover the whole ring, and copy_to_buffer then reads past its end. Proved: exactly that case fails; otherwise, with finished appends, the result is exact and sorted. With tombstone erases, a call that succeeds returns a sorted shard whose net multiplicities are those of one moment during the call (on BSM if no stretch of at most hwm consecutive operations cancels out completely)."
  },
  {
   "property": "C69",
   "status": "partial",
   "theorems": [
    "DE.Full.C69_partial",
    "DE.Full.C69_false",
    "DE.Full.C69_false_bsm"
   ],
   "note": "False: a claimed but unwritten slot can still hold an old tombstone, which cancels a live record. Proved when flushes copy only finished slots and the appends below the view's tail have finished, for queries that succeed; on BSM also assuming that no stretch of at most hwm consecutive operations cancels out completely, without which records are lost (C69_false_bsm)."
  },
  {
   "property": "C70",
   "status": "proved",
   "theorems": [
    "DE.Conc.C70"
   ],
   "note": "The assert of end_job can fail instead (C58)."
  },
  {
   "property": "C71",
   "status": "partial",
   "theorems": [
    "DE.Conc.C71_partial",
    "DE.Conc.C71_false",
    "DE.Conc.C71_false_view"
   ],
   "note": "False: a reconstruction stopped between taking out the current epoch and storing the previous one, or between the two stores of advance_head, makes queries spin for ever. Proved: those two places and the miscount of C44 are the only ones; elsewhere each call ends within 7 steps; there it never ends."
  },
  {
   "property": "C72",
   "status": "proved",
   "theorems": [
    "DE.Conc.C72"
   ],
   "note": "The counts can be wrong (C44, C58); then a reconstruction can wait for readers that are gone."
  },
  {
   "property": "C73",
   "status": "proved",
   "theorems": [
    "DE.Full.C73_record_count",
    "DE.Full.C73_bounds",
    "DE.Full.C73_sorted",
    "DE.Full.C73_vptree",
    "DE.Full.C73_quiet"
   ],
   "note": "Every execution, also those whose flushes copy unwritten slots. Inserts only (erases cancel or tag, see C14 and C69). C73_quiet is what the project's concurrent tests assert after each insert."
  },
  {
   "property": "C74",
   "status": "partial",
   "theorems": [
    "DE.Full.C74_own_writes_partial",
    "DE.Full.C74_monotone_partial",
    "DE.Full.C74_false"
   ],
   "note": "False: a record a query has returned is lost when a slow append writes it after a flush has copied its slot. Proved for executions whose flushes copy only finished slots."
  },
  {
   "property": "C75",
   "status": "partial",
   "theorems": [
    "DE.Full.C75_partial",
    "DE.Full.C75_false"
   ],
   "note": "False for the same reason as C67. Proved when flushes copy only finished slots and the appends below the view's tail have finished."
  },
  {
   "property": "C76",
   "status": "partial",
   "theorems": [
    "DE.Full.C76_partial",
    "DE.Full.C76_false"
   ],
   "note": "False for the same reason as C67, and fails when a shard lies wholly below the range (C11). Proved when flushes copy only finished slots and the appends below the view's tail have finished: exact if it returns, and it returns exactly if no shard lies below the range."
  },
  {
   "property": "C77",
   "status": "partial",
   "theorems": [
    "DE.Full.C77_partial",
    "DE.Full.C77_false"
   ],
   "note": "False for the same reason as C67. Proved when flushes copy only finished slots and the appends below the view's tail have finished."
  },
  {
   "property": "C78",
   "status": "partial",
   "theorems": [
    "DE.Full.C78_range_partial",
    "DE.Full.C78_count_partial",
    "DE.Full.C78_lookup_partial",
    "DE.Full.C78_knn_partial",
    "DE.Full.C78_false"
   ],
   "note": "False for the same reason as C74: no moment explains the result of a query after a flush copied an unwritten slot. Proved when flushes copy only finished slots and the appends below the view's tail have finished. Inserts only; get_record_count is C73."
  },
  {
   "property": "C79",
   "status": "proved",
   "theorems": [
    "DE.Conc.C79_destroy",
    "DE.Conc.C79_three",
    "DE.Conc.C79_delete",
    "DE.Conc.C79_once"
   ],
   "note": "Covers the deletes of the destructor, run when no client call and no job is in progress (a queued job may be dropped, C62); that await_next_epoch and shutdown return is the subject of C50 and C63. An epoch owns its structure; the sharing of shards between structures is C51."
  },
  {
   "property": "C80",
   "status": "partial",
   "theorems": [
    "DE.C80_static_partial",
    "DE.C80_index_partial",
    "DE.C80_joint_partial",
    "DE.C80_stored_partial",
    "DE.C80_false",
    "DE.C80_false_double"
   ],
   "note": "False of an index whose buffered records have weight: the newest is never drawn (C37). Proved for the static structure and for an index whose buffered records have no weight; insert-only histories. For such an index the samples are moreover independent draws up to their order (C80_joint_partial). After any history, as long as nothing stored is tagged, they are such draws from everything stored, tombstones included (C80_stored_partial), so that a tombstone doubles the share of the record it erases (C80_false_double). The alias structure is a parameter with the contract of being fair."
  },
  {
   "property": "C81",
   "status": "proved",
   "theorems": [
    "DE.Conc.C81_each",
    "DE.Conc.C81_cause",
    "DE.Conc.C81_all"
   ],
   "note": "An insert that schedules a reconstruction can fail the assert of end_job (C58); then it stops there."
  },
  {
   "property": "C82",
   "status": "partial",
   "theorems": [
    "DE.Stats.C82_counts",
    "DE.Stats.C82_largest_partial",
    "DE.Stats.C82_largest_apart_partial",
    "DE.Stats.C82_false"
   ],
   "note": "Counts and totals proved (as 64-bit numbers). The largest time is false: the test and the store are two steps, so a smaller time can overwrite a larger one; proved: it is always one of the logged times, and exact if calls of one type do not overlap."
  },
  {
   "property": "C83",
   "status": "proved",
   "theorems": [
    "DE.C83_recency"
   ],
   "note": "Sorted-array shards. On BSM under the condition of C03 (otherwise records are lost)."
  },
  {
   "property": "C84",
   "status": "partial",
   "theorems": [
    "DE.C84_buffer_partial",
    "DE.C84_truncate_stuck",
    "DE.C84_false"
   ],
   "note": "Holds for histories in which no truncation follows a head advance. False otherwise: truncate() resets the tail but not the head, the record count wraps to 2^64 - head, and the buffer refuses every append and head advance from then on (proved for every such history, with a concrete witness)."
  },
  {
   "property": "C85",
   "status": "partial",
   "theorems": [
    "DE.C85_pgm_same",
    "DE.C85_triespline_same",
    "DE.C85_triespline_empty",
    "DE.C85_pgm_index",
    "DE.C85_triespline_index_partial",
    "DE.C85_range_partial",
    "DE.C85_false"
   ],
   "note": "Storage, fed keys, minimum and maximum proved for every shard that can be made. The announced range is false when the record with an extreme key is cancelled or dropped (witness: 52 keys up to 51, announced up to 99); proved without deletes. RadixSpline builders assert that the last key is the announced maximum; their source is not in the repository."
  },
  {
   "property": "C86",
   "status": "partial",
   "theorems": [
    "DE.C86_lookups",
    "DE.C86_level_partial",
    "DE.C86_isam_ub",
    "DE.C86_false"
   ],
   "note": "False: ISAMTree consults a filter pointer its constructors leave null, and the other classes stop at the first record equal to the key although a tombstone can follow it. Proved for levels whose filtered lookups are defined and whose shards hold of each record only tombstones or only live copies; the function has no caller."
  },
  {
   "property": "C87",
   "status": "partial",
   "theorems": [
    "DE.C87_all_named_partial",
    "DE.C87_erased_returned",
    "DE.C87_false"
   ],
   "note": "False: neither the VPTree constructors nor the k-NN functions look at tombstones. Proved for every history: the query returns the k nearest of all records named by inserts and erases, which is the claim if nothing was erased. Tagging deletes are C33."
  },
  {
   "property": "C88",
   "status": "partial",
   "theorems": [
    "DE.C88_partial",
    "DE.C88_leveling_fails",
    "DE.C88_false"
   ],
   "note": "False under leveling with tombstone deletes: every compaction task has source level 0 (i - i), so the second one merges an emptied level, and a grown level is read before it exists. Proved: tiering, BSM and tagging indexes never need it; under leveling it fails whenever it is needed. enforce_delete_invariant is private and has no caller."
  },
  {
   "property": "C89",
   "status": "partial",
   "theorems": [
    "DE.C89_isam_partial",
    "DE.C89_vptree_partial",
    "DE.C89_alias_false",
    "DE.C89_false"
   ],
   "note": "False: no shard class of the repository counts its records (Alias reports 0 bytes). Proved: the ring and the index nodes of ISAM trees and VPTrees are counted, each once. PGM, TrieSpline and FSTrie return the size reported by an external library."
  },
  {
   "property": "C90",
   "status": "partial",
   "theorems": [
    "DE.Full.C90_range_partial",
    "DE.Full.C90_count_partial",
    "DE.Full.C90_lookup_partial",
    "DE.Full.C90_knn_partial",
    "DE.Full.C90_false"
   ],
   "note": "False even if nothing overlaps (insert, erase, then a query that still returns the record; C06) and while appends are in flight (C69). Proved, for executions in which flushes copy finished slots and the appends below the view have finished: one moment during the query explains the answer up to tombstones that have not met their record (range queries and counts between inserted minus erased and inserted; lookups of keys named only by inserts of one record, or by nothing; k-NN over all records named). On BSM, except for k-NN, assuming that no stretch of at most hwm consecutive operations cancels out completely (C69_false_bsm). Inserts only: C78."
  },
  {
   "property": "C91",
   "status": "proved",
   "theorems": [
    "DE.SerialRun.C91_serial_session",
    "DE.SerialRun.C91_serial_range_query",
    "DE.SerialRun.C91_insert_query_session"
   ],
   "note": "Tombstone deletes; for tagging, the default, see C96. The evaluation of the query is a parameter that reads the structure and the view; the shard constructor a parameter that reads only the records of its view (proved for sorted-array shards, VPTree and FSTrie)."
  },
  {
   "property": "C92",
   "status": "partial",
   "theorems": [
    "DE.Full.C92_range_partial",
    "DE.Full.C92_weighted_partial",
    "DE.Full.C92_false"
   ],
   "note": "False: a flush may copy a slot before its record is written (C59), and then the initial content of the slot, which nobody inserted, is sampled. Proved for executions in which flushes copy finished slots and the appends below the tail of the view have finished: IRS never faults and samples in-range records from one moment during the call, exactly the requested number without rejection; WSS samples inserted records whenever it returns (it may abort or loop: C37). Insert-only."
  },
  {
   "property": "C93",
   "status": "proved",
   "theorems": [
    "DE.Conc.C93",
    "DE.Conc.C93_counts",
    "DE.Conc.C93_wedged"
   ],
   "note": "Concurrent protocol model (Conc): any reachable state in which all threads are idle. The watermarks satisfy lwm <= hwm, as the buffer's constructor asserts. The thread that inserts also plays the worker of the scheduler. C93_wedged: the permanent refusal shown in C44/C58 always comes with a call that never returns."
  },
  {
   "property": "C94",
   "status": "proved",
   "theorems": [
    "DE.Conc.C94",
    "DE.Conc.C94_query",
    "DE.Conc.C94_insert",
    "DE.Conc.C94_rebuild",
    "DE.Conc.C94_abort"
   ],
   "note": "Executions in which queries and reconstructions start on one thread only (FIFOScheduler with one worker); the get_... functions, which pin epochs on the calling thread, are not called. One worker does not prevent the failures of C59 and C60 (C59_false_pool, C60_false_pool)."
  },
  {
   "property": "C95",
   "status": "partial",
   "theorems": [
    "DE.C95",
    "DE.C95_counts",
    "DE.C95_reads_partial",
    "DE.C95_copy_partial",
    "DE.C95_view_partial",
    "DE.C95_move",
    "DE.C95_available",
    "DE.C95_false_capacity",
    "DE.C95_false_raised",
    "DE.C95_false_copy"
   ],
   "note": "One thread. Termination, counts, refusals, moves and capacity proved for every buffer. What a view reads is false if the high watermark is more than half the capacity (the constructor and set_high_watermark allow it), and copy_to_buffer reads past the ring for a view of the whole ring; proved otherwise."
  },
  {
   "property": "C96",
   "status": "proved",
   "theorems": [
    "DE.SerialRun.C96_tagging_session",
    "DE.SerialRun.C96_tagging_answers"
   ],
   "note": "The refinement holds for every layout and shard class that reads only the records of its view; the end-to-end answers for sorted-array shards with leveling or tiering and sessions that do not fault. Shards shared between epochs: the tag is written in the structure of the current epoch, the only one that is read later. What the sequential tagging index answers is the subject of C08, C09, C12, C13."
  },
  {
   "property": "C97",
   "status": "partial",
   "theorems": [
    "DE.C97_compare",
    "DE.C97_order_partial",
    "DE.C97_hash_partial",
    "DE.C97_lookup_partial",
    "DE.C97_false_zero",
    "DE.C97_false_nan_lookup",
    "DE.C97_false_nan"
   ],
   "note": "False: 0.0 and -0.0 are equal but hash_bytes hashes their different bytes, so a stored 0.0 is not found by -0.0 (and cannot be erased by it); with a NaN operator< is not a strict weak order, and a point with a NaN is never found. Proved: the comparisons of the model are those of the numbers the bits stand for (IEEE 754 fields, infinities included); the order for points without NaN; hash and lookup for points without NaN and -0.0. std::unordered_map is modelled by its contract, the hash function is a parameter."
  },
  {
   "property": "C98",
   "status": "proved",
   "theorems": [
    "DE.C98_knn_index",
    "DE.C98_inserted",
    "DE.C98_euclid",
    "DE.C98_not_exact"
   ],
   "note": "The search is the model of C30/C32, run on a type of distances whose operations round. The rounding function is any with relative error u and symmetric in the sign: IEEE round-to-nearest with u = 2^-53 as long as nothing overflows or underflows. C98_not_exact: a run in 53-bit arithmetic (binary64 without exponent bounds) in which the record returned is at twice the distance of the nearest, so the slack is needed."
  },
  {
   "property": "C99",
   "status": "partial",
   "theorems": [
    "DE.C99_partial",
    "DE.C99_false"
   ],
   "note": "False: subtraction and multiplication are 64-bit and wrap; the distance between 0 and 2^32 is computed as 0, so 2^32 is returned as the nearest neighbour of 0 instead of 1. Proved, with the slack of C98, when in each dimension the coordinates lie within a range of 2^32."
  },
  {
   "property": "C100",
   "status": "proved",
   "theorems": [
    "DE.C100_insert_only",
    "DE.C100_any_history",
    "DE.C100_tombstones",
    "DE.C100_builtin"
   ],
   "note": "The contract (`Decomposition`, SpecQuery.lean) speaks of single shards, lists of records and lists of partial answers only. Termination of classes that repeat is theirs: the answer is right if the query returns, and a class that never repeats returns. C100_builtin: the hand-specialised models of the built-in queries are this driver on their classes. Serial index; the driver beside other threads is C51, C67, C78."
  },
  {
   "property": "C101",
   "status": "partial",
   "theorems": [
    "DE.Full.C101_partial",
    "DE.Full.C101_any_partial",
    "DE.Full.C101_tombstones_partial",
    "DE.Full.C101_false"
   ],
   "note": "False for the same reason as C67 and C78 (a flush copies a slot not yet written). Proved when flushes copy only finished slots and the appends below the view's tail have finished, with tombstone erases too (on BSM if no stretch of at most hwm consecutive operations cancels out completely); in every insert-only execution the query is defined and answers for as many values as the view's tail says, each inserted or a zeroed slot (C101_any_partial)."
  },
  {
   "property": "C102",
   "status": "partial",
   "theorems": [
    "DE.C102_partial",
    "DE.C102_louds_partial",
    "DE.C102_defined_partial",
    "DE.C102_net_partial",
    "DE.C102_false_literal",
    "DE.C102_false_erased",
    "DE.C102_false_empty"
   ],
   "note": "FSTrie and LoudsPatricia, any tree of constructions and merges: exact for at least one record, no erases, different keys, none of them the literal \"\"; net counts with tombstones for any conserving class. False otherwise: the literal key is dropped, a record erased within one buffer is found, a shard whose records all cancel has no trie and cannot be merged."
  },
  {
   "property": "C103",
   "status": "proved",
   "theorems": [
    "DE.Full.C103_order",
    "DE.Full.C103_published",
    "DE.Full.C103_overlap"
   ],
   "note": "Any layout, shard class, thread count and execution (writers between claiming and writing a slot included). Calls that overlap are not ordered: C103_overlap shows a call that began first and pins the older version last."
  },
  {
   "property": "C104",
   "status": "proved",
   "theorems": [
    "DE.Full.C104_tiering",
    "DE.Full.C104_leveling",
    "DE.Full.C104_bsm"
   ],
   "note": "Inserts and erases with tombstones, any number of threads, any execution, including flushes that copy slots before they are written and blocks that cancel out; any shard class that loses records only in pairs."
  },
  {
   "property": "C105",
   "status": "partial",
   "theorems": [
    "DE.Torn.C105_steps",
    "DE.Torn.C105_finished_partial",
    "DE.Torn.C105_visible_partial",
    "DE.Torn.C105_race_partial",
    "DE.Torn.C105_writers_partial",
    "DE.Torn.C105_flush_partial",
    "DE.Torn.C105_false"
   ],
   "note": "False: queries look at every position of their view, also at one still being written; if the slot is used for the second time, the query gets words of the new and of the old record under a header with the visible bit of the old one. Proved, for slots written and read word by word in any order, when flushes start to copy only finished slots: reads of finished positions return the record whole and race with no write, flushes copy whole records in order, and in the first round of the ring testing the visible bit first is enough. Words are read and written atomically; the store buffers of the hardware are not modelled."
  },
  {
   "property": "C106",
   "status": "proved",
   "theorems": [
    "DE.C106_counting_is_invisible",
    "DE.C106_tiering",
    "DE.C106_leveling",
    "DE.C106_bsm",
    "DE.C106_tiering_log",
    "DE.C106_leveling_log",
    "DE.C106_bsm_log"
   ],
   "note": "Work is counted by a shard class wrapped around any other: a shard built from the buffer or merged starts with the records that went in plus the counts of the shards merged (kept in the field of the tombstone count, which no reconstruction reads). C106_counting_is_invisible: the wrapped index behaves as the plain one. The records flushed are also a lower bound, so no count is lost under tiering and leveling. BSM with erases is left out because a shard that cancels to nothing takes its count with it."
  },
  {
   "property": "C107",
   "status": "partial",
   "theorems": [
    "DE.C107_core_partial",
    "DE.C107_partial",
    "DE.C107_false_zero",
    "DE.C107_false_wrap"
   ],
   "note": "False for thread_cnt = 0, which the scheduler takes as its default of eight threads: the first reconstruction computes a remainder by zero. False when the 32-bit counter passes -1: with three threads two reconstructions in a row get the same core. Proved for thread_cnt >= 1 (the range, always) and below 2^31 reconstructions (different cores)."
  },
  {
   "property": "C108",
   "status": "proved",
   "theorems": [
    "DE.C108_counting_is_invisible",
    "DE.C108_isam",
    "DE.C108_alias",
    "DE.C108_learned",
    "DE.C108_lookup"
   ],
   "note": "Counted copies of the searches; C108_counting_is_invisible: they compute what the plain models compute. The evaluation of the PGM-index or RadixSpline itself is external and not counted; valid means that the window it returns lies within the array and contains the position (C25)."
  },
  {
   "property": "C109",
   "status": "proved",
   "theorems": [
    "DE.C109_any",
    "DE.C109_log",
    "DE.C109_search",
    "DE.Full.C109_concurrent",
    "DE.Full.C109_concurrent_log"
   ],
   "note": "C109_any and C109_concurrent hold for every shard class; the logarithmic forms need one that loses records only in pairs (serial: sorted arrays). The scan of the buffer is linear in its records and not part of the claim."
  },
  {
   "property": "C110",
   "status": "partial",
   "theorems": [
    "DE.C110_counting_is_invisible",
    "DE.C110_build_partial",
    "DE.C110_average_partial",
    "DE.C110_lookup",
    "DE.C110_search",
    "DE.C110_false"
   ],
   "note": "False for equal points (or points at equal distances): partition puts them all on one side of the pivot, so selecting the first median of n equal points takes at least (n/2)*(n-1-n/2) comparisons and n/2 nested calls, for every n and every random numbers. Depth, distances computed, lookup and search are proved as claimed; the selection at most n^2 comparisons. Averaged over all random streams, when no two points are equally far from a third, the selections take at most 4*n comparisons per level."
  },
  {
   "property": "C111",
   "status": "partial",
   "theorems": [
    "DE.C111_partial",
    "DE.C111_returns_partial",
    "DE.C111_false_empty",
    "DE.C111_false_again"
   ],
   "note": "Total for any layout while there are fewer erases than the low watermark; under leveling and tiering, for any number of erases, every answer that is returned is right. Each string is spelled by one record and inserted at most once, before its erase; no key is the literal \"\". False: erasing all records of a buffer builds a shard whose trie pointer is never set, and the next lookup reads it; a string inserted again after its erase is hidden by the tagged record."
  },
  {
   "property": "C112",
   "status": "partial",
   "theorems": [
    "DE.C112_defined_iff",
    "DE.C112_partial",
    "DE.C112_bytes",
    "DE.C112_cosine",
    "DE.C112_false",
    "DE.C112_false_wraps",
    "DE.C112_false_cosine"
   ],
   "note": "False: the square of a difference is computed in the promoted integer type; for int, int16_t and uint16_t a difference of 46341 overflows a signed int, which is undefined behaviour, for int64_t one of 3037000500; for uint32_t a difference of 65536 has distance 0. Proved: for signed types and types narrower than int the distance is defined exactly if no coordinates differ by more; within the limits of each type k-NN queries are right up to rounding; coordinates of 8 bits are always within."
  },
  {
   "property": "C113",
   "status": "partial",
   "theorems": [
    "DE.C113_partial",
    "DE.C113_short",
    "DE.C113_remove",
    "DE.C113_smallest",
    "DE.C113_read",
    "DE.C113_sources",
    "DE.C113_false"
   ],
   "note": "False: add_reconstruction(task) does not add to the total, so the total is short by the records of tasks added this way, and after removing such a task it is 2^64 minus them. Proved for all other calls; in general the total plus those records is the sum. Removing from an empty list aborts (by index) or is undefined (smallest)."
  },
  {
   "property": "C114",
   "status": "proved",
   "theorems": [
    "DE.C114_next",
    "DE.C114_advance",
    "DE.C114_peek",
    "DE.C114_merge"
   ],
   "note": "The current cursor of the look-ahead must have a record left; records are compared by a linear order."
  },
  {
   "property": "C115",
   "status": "partial",
   "theorems": [
    "DE.C115_partial",
    "DE.C115_stored_partial",
    "DE.C115_exact",
    "DE.C115_all_in",
    "DE.C115_false"
   ],
   "note": "Generating functions over all streams. False as sequences: the buffer is sampled before the shards, so the order of the result is not random (C115_false). Proved: whatever order-free quantity of the samples is looked at, with or without rejection, given that m records are returned they are m independent uniform draws from the records inserted into the range (C115_partial); after any history, with erases, from everything stored in the range, tombstones counted as copies (C115_stored_partial); without rejection m is always the number asked for (C115_exact); the probability that all lie in a set is the power of its share (C115_all_in)."
  },
  {
   "property": "C116",
   "status": "partial",
   "theorems": [
    "DE.C116_partial",
    "DE.C116_ops_partial",
    "DE.C116_validate_partial",
    "DE.C116_pow2_partial",
    "DE.C116_false",
    "DE.C116_false_inexact"
   ],
   "note": "False for large scale factors: the product does not fit and its conversion is undefined (C116_false). Proved for all layouts, delete policies and shard classes as long as the capacity of the deepest level is at most 2^53 (C116_partial), which follows from hwm * sf^2 * (operations + 1) <= 2^53 by the height bounds of C16 (C116_ops_partial); the check of the tombstone proportion likewise. For scale factors that are powers of two a capacity is exact up to 2^64 and undefined exactly beyond (C116_pow2_partial). pow is a parameter with the contract that representable results are exact."
  },
  {
   "property": "C117",
   "status": "proved",
   "theorems": [
    "DE.C117_range",
    "DE.C117_weighted",
    "DE.C117_pair"
   ],
   "note": "Insert-only histories, at least one record in range (C55 otherwise) respectively a positive total weight. The alias structure is a parameter with the contract of being fair; the number of values of a draw is a multiple of what is drawn from."
  },
  {
   "property": "C118",
   "status": "proved",
   "theorems": [
    "DE.Rc.C118_reconstruction",
    "DE.Rc.C118_query",
    "DE.Rc.C118_destroy",
    "DE.Rc.C118_static",
    "DE.Rc.C118_live",
    "DE.Rc.C118_empty"
   ],
   "note": "Reference counts over the heap of versions, levels and shards (Snapshot); using, copying or releasing a pointer to something freed is undefined behaviour in the model (second example). A reconstruction is one step, since only one runs at a time (C49). Which versions may be retired while queries run is C48 and C79; the memory inside a shard belongs to the shard and is not modelled here."
  },
  {
   "property": "C119",
   "status": "proved",
   "theorems": [
    "DE.CH.C119_refines",
    "DE.CH.C119_complete",
    "DE.CH.C119_no_ub",
    "DE.CH.C119_pinned",
    "DE.CH.C119_frozen",
    "DE.CH.C119_live",
    "DE.CH.C119_teardown"
   ],
   "note": "The concurrent protocol (Conc, Full) over the heap with reference counts (Ownership), every interleaving. Copying, building and destroying a version is one step each: the counters are atomic, only the one reconstruction in flight (C49) touches the next version, and a query does not copy shared pointers. create_static_structure and tagged deletes are not part of the concurrent model (C118 has them)."
  },
  {
   "property": "C120",
   "status": "partial",
   "theorems": [
    "DE.SM.C120_partial",
    "DE.SM.C120_false_fst",
    "DE.SM.C120_false",
    "DE.SM.C120_false_tombstone"
   ],
   "note": "Proved for all classes except an FSTrie in which no record is left. False there: m_fst is in no initialiser list, so deleting such a shard or asking the index for its memory usage reads an indeterminate pointer; a tagging history and a tombstone history reach it."
  },
  {
   "property": "C121",
   "status": "partial",
   "theorems": [
    "DE.Full.C121_partial",
    "DE.Full.C121_sorted_partial",
    "DE.Full.C121_false"
   ],
   "note": "Proved for executions in which flushes copy only finished slots, appends in flight allowed; on BSM if no stretch of at most hwm consecutive operations cancels out completely. False on BSM otherwise: a flushed block that cancels out makes later records vanish. Inserts only, every execution: C73."
  },
  {
   "property": "C122",
   "status": "partial",
   "theorems": [
    "DE.Full.C122_range_partial",
    "DE.Full.C122_all_in",
    "DE.Full.C122_weighted_partial",
    "DE.Full.C122_false"
   ],
   "note": "Proved for inserts only, executions in which flushes copy only finished slots, once the appends below the tail of the view have finished: given that m samples are returned they are, in any order, independent uniform draws from the records in range whose inserts had taken effect at one moment of the call; the query ends with probability 1; weighted samples likewise if the buffered records of the view have no weight. False when a flush copies an unfinished slot (C122_false), and as sequences (C115_false)."
  },
  {
   "property": "C123",
   "status": "partial",
   "theorems": [
    "DE.C123_create",
    "DE.C123_inserts",
    "DE.C123_range_query_partial",
    "DE.C123_tombstone_merging_partial",
    "DE.C123_static_structure_tombstones",
    "DE.C123_static_structure_tagging_partial",
    "DE.C123_false",
    "DE.C123_false_tagging",
    "DE.C123_false_merging"
   ],
   "note": "t_create, t_insert, t_debug_insert and t_insert_with_mem_merges hold for any records on every layout and delete policy; t_range_query holds exactly if no further key equals one of the two bounds (C123_false: it fails if the keys drawn are all equal); t_tombstone_merging_01 holds except for leveling with tombstones, where the random choices of the loop can make it fail (C123_false_merging, with the watermarks divided by 100); t_static_structure holds with tombstones on every layout, and with tagging on leveling and tiering whenever the calls are defined (C123_false_tagging: they need not be)."
  },
  {
   "property": "C124",
   "status": "proved",
   "theorems": [
    "DE.Own.C124_mbuffer_init",
    "DE.Own.C124_shard_init",
    "DE.Own.C124_full_cancelation",
    "DE.Own.C124_point_lookup",
    "DE.Own.C124_range_query",
    "DE.Own.C124_range_query_merge",
    "DE.Own.C124_range_query_sequential",
    "DE.Own.C124_range_query_merge_sequential",
    "DE.Own.C124_range_count",
    "DE.Own.C124_range_count_merge",
    "DE.Own.C124_range_count_sequential",
    "DE.Own.C124_level_merge",
    "DE.Own.C124_lower_bound"
   ],
   "note": "Every registered test of the four files, for any number of records up to 2^28 and any records. The TrieSpline lookup is for shards that do not have exactly 50 records (the tests use other sizes). t_full_cancelation needs a merge queue that orders equal records by header or by cursor. C124_lower_bound: the unregistered t_lower_bound would fail on the ISAM tree."
  },
  {
   "property": "C125",
   "status": "partial",
   "theorems": [
    "DE.C125_mbuffer_init",
    "DE.C125_wss_init",
    "DE.C125_point_lookup",
    "DE.C125_point_lookup_miss",
    "DE.C125_buffer_query",
    "DE.C125_knn_query_partial",
    "DE.C125_false_tie",
    "DE.C125_false_zero"
   ],
   "note": "The constructor, lookup and buffer query tests hold for any points, random numbers and queue (the buffer query whatever the queue does with equal distances). t_knn_query holds for every k >= 1 except k = 2p: there two points are equally far, and C125_false_tie shows a draw of the root with the test's 1000 points and leaves of 100 for which the assertion fails; for k = 0, which the test draws with probability 1/150 in each of its 100 rounds, the search pops an empty queue (C125_false_zero). Distances are exact reals."
  },
  {
   "property": "C126",
   "status": "proved",
   "theorems": [
    "DE.C126_irs",
    "DE.C126_buffer_irs",
    "DE.C126_irs_merge",
    "DE.C126_wss",
    "DE.C126_buffer_wss",
    "DE.C126_buffer_wss_one"
   ],
   "note": "For any records, ranges, sample sizes and random streams; the alias structure meets its contract (an index of positive weight is drawn) and the generator accepts bounds up to the number of records. The range of the shard tests holds a record and the weighted records have some weight, as in the tests. C126_buffer_wss_one shows that the size condition of the weighted buffer test is needed: with one record the program aborts. Weights and their sum are natural numbers (no 32-bit wraparound)."
  },
  {
   "property": "C127",
   "status": "proved",
   "theorems": [
    "DE.C127_linearizable",
    "DE.C127_count",
    "DE.C127_all",
    "DE.C127_terminates"
   ],
   "note": "For any number of threads, any records and any interleaving of the atomic operations, on a freshly created buffer without concurrent flushes or views (those are C42-C46, where the same code is shown to fail). Sequentially consistent atomics; the tombstone filter, a shared non-atomic structure, is left out; positions below 2^31."
  },
  {
   "property": "C128",
   "status": "partial",
   "theorems": [
    "DE.C128_partial",
    "DE.C128_list_partial",
    "DE.C128_false_empty",
    "DE.C128_empty"
   ],
   "note": "False for a view without records: its wrapped start and end are equal, so delete_record searches the whole ring and may return true for a record that has left the buffer (C128_false_empty; exactly when, in C128_empty). Proved for every view with at least one record, of a buffer used by one thread whose high watermark stays at most half its capacity (the framework's case; C95_false_capacity is the counterexample for others)."
  },
  {
   "property": "C129",
   "status": "proved",
   "theorems": [
    "DE.C129_advance",
    "DE.C129_get",
    "DE.C129_truncate"
   ],
   "note": "The programs of t_insert, t_truncate, t_advance_head and t_bview_get, with any watermarks and records that meet the tests' own conditions (stated as hypotheses; the bound of C129_advance is needed, see the example beside it). The Bloom filter of the tombstones is any filter without false negatives. t_bview_delete is C128, t_multithreaded_insert is C127."
  },
  {
   "property": "C130",
   "status": "proved",
   "theorems": [
    "DE.Own.C130_mbuffer_init",
    "DE.Own.C130_shard_init",
    "DE.Own.C130_point_lookup",
    "DE.Own.C130_buffer_lookup"
   ],
   "note": "The programs of tests/include/shard_string.h and tests/include/pointlookup.h on FSTrie and LoudsPatricia, for any records that have what the word list of the tests has (different keys for the lookups, no key that is the literal empty string). The trie meets the contract Trie.Exact. An example shows that the miss checked by t_buffer_point_lookup would also be reported if the key were stored."
  }
 ]
}