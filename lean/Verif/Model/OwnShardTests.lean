import Verif.Model.Query

/-!
The programs of the project's own shard, range query, range count and level tests, tests/include/shard_standard.h,
tests/include/rangequery.h, tests/include/rangecount.h and tests/internal_level_tests.cpp, with the buffers they fill (tests/include/testing.h). The records are parameters.
-/

namespace DE.Own

/-- `create_test_mbuffer`, `create_sequential_mbuffer`, `create_double_seq_mbuffer` (testing.h 120-165, 224-238) and the
first lines of `t_mbuffer_init` (shard_standard.h 37-51): a buffer with watermarks `cnt/2` and `cnt`, then `cnt` appends
whose results are ignored. -/
def fill {R : Type} [Inhabited R] (items : List (R × Bool)) : Res (Buffer R) := do
  let b ← Buffer.new (items.length / 2) items.length
  .ok (items.foldl (fun b p => (b.append p.1 p.2).1) b)

variable {R K : Type} [LinearOrder R] [LinearOrder K] [HasKey R K]

/-- `Shard(buffer->get_buffer_view())` on such a buffer. -/
def shardOf [Inhabited R] (items : List (R × Bool)) : Res (Shard R) := do
  let b ← fill items
  sortedFromView b.view

/-- The loop of `t_shard_init`, shard_standard.h 78-98, on what is left of the merged shard and of the three inputs: `false`
is its `assert(false)`. -/
def matchLoop : List R → List R → List R → List R → Bool
  | [], _, _, _ => true
  | c :: cs, xs, ys, zs =>
    if xs.head? = some c then matchLoop cs xs.tail ys zs
    else if ys.head? = some c then matchLoop cs xs ys.tail zs
    else if zs.head? = some c then matchLoop cs xs ys zs.tail
    else false

/-- The records of a shard, `get_record_at(0)`, `get_record_at(1)`, ... -/
def recs (s : Shard R) : List R := s.data.map Wrapped.record

/-- `t_shard_init`, shard_standard.h 61-108: record count and tombstone count of the merged shard, and the outcome of the
loop. The three buffers hold inserts. -/
def shardInit [Inhabited R] (pq : PQ R) (xs ys zs : List R) : Res (Nat × Nat × Bool) := do
  let s1 ← shardOf (xs.map (·, false))
  let s2 ← shardOf (ys.map (·, false))
  let s3 ← shardOf (zs.map (·, false))
  let s ← sortedMerge pq [some s1, some s2, some s3]
  .ok (s.data.length, s.tscnt, matchLoop (recs s) (recs s1) (recs s2) (recs s3))

/-- `t_full_cancelation`, shard_standard.h 111-138: the (record count, tombstone count) of the shard of inserts, of the
shard of tombstones and of their merge. -/
def fullCancelation [Inhabited R] (pq : PQ R) (xs ts : List R) : Res ((Nat × Nat) × (Nat × Nat) × (Nat × Nat)) := do
  let s ← shardOf (xs.map (·, false))
  let t ← shardOf (ts.map (·, true))
  let m ← sortedMerge pq [some s, some t]
  .ok ((s.data.length, s.tscnt), (t.data.length, t.tscnt), (m.data.length, m.tscnt))

/-- `t_mbuffer_init`, shard_standard.h 35-58: inserts of `as`, tombstones of `ts`, inserts of `bs`; the resulting shard. -/
def mbufferInit [Inhabited R] (as ts bs : List R) : Res (Shard R) :=
  shardOf (as.map (·, false) ++ ts.map (·, true) ++ bs.map (·, false))

/-- `t_range_query` and the local queries of `t_range_query_merge`, tests/include/rangequery.h 40-60, 87-108. -/
def shardRange [Inhabited R] (lb : LB R K) (xs : List R) (lo hi : K) : Res (List (Wrapped R)) := do
  let s ← shardOf (xs.map (·, false))
  rqLocal lb s lo hi

/-- `t_buffer_range_query`, rangequery.h 63-84. -/
def bufferRange [Inhabited R] (xs : List R) (lo hi : K) : Res (List (Wrapped R)) := do
  let b ← fill (xs.map (·, false))
  rqBuffer b.view lo hi

/-- `t_range_query_merge`, rangequery.h 87-135, up to the `std::sort` of the result: the combined result of the queries on
two shards. -/
def rangeMerge [Inhabited R] (pq : PQ R) (lb : LB R K) (xs ys : List R) (lo hi : K) : Res (List R) := do
  let r1 ← shardRange lb xs lo hi
  let r2 ← shardRange lb ys lo hi
  .ok (rqCombine pq [r1, r2])

/-- `t_range_count`, tests/include/rangecount.h 40-56. -/
def shardCount [Inhabited R] (lb : LB R K) (xs : List R) (lo hi : K) : Res (List (Nat × Nat)) := do
  let s ← shardOf (xs.map (·, false))
  rcLocal lb s lo hi

/-- `t_buffer_range_count`, tests/include/rangecount.h 59-76. -/
def bufferCount [Inhabited R] (xs : List R) (lo hi : K) : Res (List (Nat × Nat)) := do
  let b ← fill (xs.map (·, false))
  rcBuffer b.view lo hi

/-- `t_range_count_merge`, tests/include/rangecount.h 79-113. -/
def countMerge [Inhabited R] (lb : LB R K) (xs ys : List R) (lo hi : K) : Res Nat := do
  let r1 ← shardCount lb xs lo hi
  let r2 ← shardCount lb ys lo hi
  rcCombine [r1, r2]

/-- `t_memlevel_merge`, tests/internal_level_tests.cpp 27-48: the record counts of two levels with one shard each and of
their reconstruction. -/
def levelMerge [Inhabited R] (I : ShardImpl R) (xs ys : List R) : Res (Nat × Nat × Nat) := do
  let b1 ← fill (xs.map (·, false))
  let b2 ← fill (ys.map (·, false))
  let base ← Level.appendBuffer I (Level.new 1 1) b1.view
  let merging ← Level.appendBuffer I (Level.new 0 1) b2.view
  let l ← Level.reconstruct2 I base merging
  .ok (base.recordCount, merging.recordCount, l.recordCount)

/-- The lookup `merged.get_record_at(merged.get_lower_bound(i))` of `t_lower_bound`, rangequery.h 138-169 (a test that is
written but not registered, 171-177). -/
def lowerBoundRec [Inhabited R] (pq : PQ R) (lb : LB R K) (xs ys : List R) (k : K) : Res R := do
  let s1 ← shardOf (xs.map (·, false))
  let s2 ← shardOf (ys.map (·, false))
  let s ← sortedMerge pq [some s1, some s2]
  let i ← lb s.data k
  let w ← getR s.data i
  .ok w.record

/-- The records `create_sequential_mbuffer(start, stop)` appends, testing.h 155-162. -/
def sequential (start stop : Nat) : List (Record Nat Nat) := (List.range' start (stop - start)).map (fun i => ⟨i, i⟩)

/-- The records `create_double_seq_mbuffer(cnt)` appends, testing.h 229-235. -/
def doubleSeq (cnt : Nat) : List (Record Nat Nat) :=
  (List.range (cnt / 2)).map (fun i => ⟨i, i⟩) ++ (List.range (cnt / 2)).map (fun i => ⟨i, i + 1⟩)

end DE.Own
