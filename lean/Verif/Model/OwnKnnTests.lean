import Verif.Model.OwnShardTests
import Verif.Model.Points

/-!
The programs of the project's own VPTree and k-NN tests, tests/vptree_tests.cpp. Records, distance, leaf size (`LEAFSZ`, 100 in the
tests) and random numbers are parameters.

Simplified as in `Points.lean`: distances of points are exact reals (coordinates up to 10000 in these tests).
-/

namespace DE.Own

/-- The point `{i, i}` of `PRec = EuclidPoint<uint64_t>`, testing.h 28. -/
def diag (i : Nat) : Fin 2 → ℝ := fun _ => i

/-- The points `create_sequential_mbuffer<PRec>(0, n)` appends, testing.h 150-166. -/
def diagSeq (n : Nat) : List (Fin 2 → ℝ) := (List.range n).map diag

variable {R 𝔽 : Type} [DecidableEq R] [Inhabited R] [LinearOrder 𝔽] [Zero 𝔽]

/-- `new Shard(buffer->get_buffer_view())` on a buffer of inserts, vptree_tests.cpp 26-41 (`t_mbuffer_init`), 75-76. -/
def vpShard (dist : R → R → 𝔽) (leafSz : Nat) (g : Rng) (xs : List R) : Res (Shard R) := do
  let b ← fill (xs.map (·, false))
  (vpImpl dist leafSz g).build b.view

/-- `t_wss_init`, vptree_tests.cpp 43-68: record count and tombstone count of the merge of three shards. -/
def vpInit (dist : R → R → 𝔽) (leafSz : Nat) (g : Rng) (xs ys zs : List R) : Res (Nat × Nat) := do
  let s1 ← vpShard dist leafSz g xs
  let s2 ← vpShard dist leafSz g ys
  let s3 ← vpShard dist leafSz g zs
  let s ← (vpImpl dist leafSz g).merge [some s1, some s2, some s3]
  .ok (s.data.length, s.tscnt)

/-- One lookup of `t_point_lookup` and `t_point_lookup_miss`, vptree_tests.cpp 71-116: the record found. -/
def vpLookup (dist : R → R → 𝔽) (leafSz : Nat) (g : Rng) (xs : List R) (r : R) : Res (Option R) := do
  let s ← vpShard dist leafSz g xs
  let i ← (vpImpl dist leafSz g).lookup s r
  match i with
  | none => .ok none
  | some i => do
    let w ← getR s.data i
    .ok (some w.record)

/-- One query of `t_knn_query`, vptree_tests.cpp 148-186. -/
def shardKnn [Add 𝔽] [Sub 𝔽] (q : MaxQ R 𝔽) (dist : R → R → 𝔽) (leafSz : Nat) (g : Rng) (xs : List R) (point : R) (k : Nat) : Res (List R) := do
  let s ← vpShard dist leafSz g xs
  let t ← VP.tree dist leafSz g s.data
  knnLocal q dist t point k

omit [DecidableEq R] [Zero 𝔽] in
/-- The query of `t_buffer_query`, vptree_tests.cpp 119-146. -/
def bufferKnn (q : MaxQ R 𝔽) (dist : R → R → 𝔽) (xs : List R) (point : R) (k : Nat) : Res (List R) := do
  let b ← fill (xs.map (·, false))
  let l ← b.view.gets
  knnBuffer q dist l point k

end DE.Own
