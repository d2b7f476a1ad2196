import Verif.Model.FSTrie
import Verif.Model.Louds
import Verif.Model.OwnShardTests

/-!
The programs of the project's own string shard and point lookup tests, tests/include/shard_string.h and tests/include/pointlookup.h, which
tests/fst_tests.cpp runs on `FSTrie` and tests/louds_tests.cpp is written to run on `LoudsPatricia` (it is not part of the build).
The shard class is a parameter `I`, its `point_lookup` by key a parameter `look`. The records are parameters in place of the word list that `read_string_data` reads (testing.h 37-66).
Contents and addresses of keys are as in `Model/FSTrie.lean`; as there, two records with the same content are the same record.
-/

namespace DE.Own
variable {R S P : Type} [LinearOrder R] [LinearOrder S] [HasKey R S] [Inhabited R]

/-- `Shard(buffer->get_buffer_view())` on the buffer of `create_test_mbuffer`, testing.h 120-131. -/
def strShardOf (I : ShardImpl R) (xs : List R) : Res (Shard R) := do
  let b ← fill (xs.map (·, false))
  I.build b.view

/-- The buffer of `t_mbuffer_init`, shard_string.h 34-48: appends of `as`, `delete_record` of `ts`, appends of `bs`; all return values are
ignored. -/
def strFill (lwm hwm : Nat) (as ts bs : List R) : Res (Buffer R) := do
  let b ← Buffer.new lwm hwm
  let b := (as.map (·, false)).foldl (fun b p => (b.append p.1 p.2).1) b
  let b := ts.foldl (fun b r => (b.deleteRecord r).1) b
  .ok ((bs.map (·, false)).foldl (fun b p => (b.append p.1 p.2).1) b)

/-- `t_mbuffer_init`, shard_string.h 32-54: the shard whose record count it compares. -/
def strMbufferInit (I : ShardImpl R) (lwm hwm : Nat) (as ts bs : List R) : Res (Shard R) := do
  let b ← strFill lwm hwm as ts bs
  I.build b.view

/-- `t_shard_init`, shard_string.h 57-106: record count and tombstone count (FSTrie.h 182-184) of the merged shard, and the outcome of the
loop. -/
def strShardInit (I : ShardImpl R) (xs ys zs : List R) : Res (Nat × Nat × Bool) := do
  let s1 ← strShardOf I xs
  let s2 ← strShardOf I ys
  let s3 ← strShardOf I zs
  let s ← I.merge [some s1, some s2, some s3]
  .ok (s.data.length, s.tscnt, matchLoop (recs s) (recs s1) (recs s2) (recs s3))

/-- One lookup of `t_point_lookup` and `t_point_lookup_miss`, shard_string.h 108-152, and of `t_point_lookup_query`, pointlookup.h 37-67: the
pointer `point_lookup` returns as a position, and the result of the local query. -/
def strLookupTest (look : Shard R → S → Res (Option Nat)) (s : Shard R) (k : S) : Res (Option Nat × List (Wrapped R)) := do
  let p ← look s k
  let l ← plLocal look s k
  .ok (p, l)

/-- One lookup of `t_buffer_point_lookup`, tests/include/pointlookup.h 70-99: `local_query_buffer` (include/query/pointlookup.h 74-88)
compares the addresses of the keys. -/
def strBufferLookup [DecidableEq P] (addr : R → P) (xs : List R) (p : P) : Res (List (Wrapped R)) := do
  let b ← fill (xs.map (·, false))
  let l ← b.view.gets
  match l.find? (fun w => decide (addr w.record = p)) with
  | some w => .ok [w]
  | none => .ok []

end DE.Own
