import Verif.Model.Sampling
import Verif.Model.OwnShardTests

/-!
The programs of the project's own sampling tests, tests/include/irs.h (run on ISAM trees by tests/irs_tests.cpp) and
tests/include/wss.h (run on alias shards by tests/alias_tests.cpp). Records, range, sample size, random numbers and the
external alias structure are parameters.
-/

namespace DE.Own
variable {R K : Type} [LinearOrder R] [LinearOrder K] [HasKey R K] [Inhabited R]

/-- `t_irs`, tests/include/irs.h 43-69: a range sample from a shard of inserts, without a buffer query. -/
def shardIrs (g : Rng) (lb ub : LB R K) (xs : List R) (lo hi : K) (n : Nat) : Res (List R) := do
  let s ← shardOf (xs.map (·, false))
  irsStatic g lb ub s lo hi n

/-- `t_buffer_irs`, tests/include/irs.h 72-99: `distribute_query` with no shard, then the buffer query. `rej` is the template
parameter `REJECTION`. -/
def bufferIrs (rej : Bool) (al : AliasFn) (g : Rng) (xs : List R) (lo hi : K) (n : Nat) : Res (List R) := do
  let b ← fill (xs.map (·, false))
  let buf ← b.view.gets
  let (ns, pos) ← Irs.distributeQuery rej al g lo hi buf [] n 0
  let nb ← getR ns 0
  let (r, _) ← Irs.bufferQuery rej g lo hi buf nb pos
  .ok (r.map Wrapped.record)

/-- `t_irs_merge`, tests/include/irs.h 102-152: two shards and a dummy buffer query without records. The results of the two
local queries, and what `combine` makes of them (irs.h 217-225). -/
def mergeIrs (rej : Bool) (al : AliasFn) (g : Rng) (lb ub : LB R K) (xs ys : List R) (lo hi : K) (n : Nat) :
    Res (List R × List R × List R) := do
  let s1 ← shardOf (xs.map (·, false))
  let s2 ← shardOf (ys.map (·, false))
  let q1 ← Irs.preproc lb ub lo hi s1
  let q2 ← Irs.preproc lb ub lo hi s2
  let (ns, pos) ← Irs.distributeQuery rej al g lo hi [] [q1, q2] n 0
  let n1 ← getR ns 1
  let n2 ← getR ns 2
  let (r1, pos) ← Irs.localQuery g q1 n1 pos
  let (r2, _) ← Irs.localQuery g q2 n2 pos
  .ok (r1.map Wrapped.record, r2.map Wrapped.record, (r1 ++ r2).map Wrapped.record)

/-- `t_wss_query`, tests/include/wss.h 41-65: a weighted sample from a shard of inserts, without a buffer query. -/
def shardWss (wt : R → Nat) (al : AliasFn) (g : Rng) (xs : List R) (n : Nat) : Res (List R) := do
  let s ← shardOf (xs.map (·, false))
  wssStatic wt al g s n

/-- `t_buffer_wss_query`, tests/include/wss.h 68-92: `distribute_query` with no shard, then the buffer query. -/
def bufferWss (wt : R → Nat) (D : Nat) (al : AliasFn) (g : Rng) (xs : List R) (n : Nat) : Res (List R) := do
  let b ← fill (xs.map (·, false))
  let buf ← b.view.gets
  let (ns, pos) ← distribute al [Wss.total wt buf] g n 0 [0]
  let nb ← getR ns 0
  let (r, _) ← drawMany (Wss.drawBuf wt D g buf) nb pos
  .ok (r.map Wrapped.record)

end DE.Own
