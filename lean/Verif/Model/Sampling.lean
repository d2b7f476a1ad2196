import Verif.Model.SortedShard

/-!
Models of the sampling queries `include/query/irs.h` (independent range sampling) and `include/query/wss.h` (weighted set
sampling), with the driver loop of `DynamicExtension::async_query` (DynamicExtension.h 609-680).

Randomness is an arbitrary tape of numbers. `psudb::Alias` (external) is a parameter: a function from the weights and a random
number to an index.
-/

namespace DE

/-- A `gsl_rng`: an arbitrary tape, and the largest bound accepted by `gsl_rng_uniform_int`. -/
structure Rng where
  tape : Nat → Nat
  max : Nat

/-- `gsl_rng_uniform_int(rng, n)`: a number below `n`. For `n = 0` or `n` above the generator's range the GSL error handler
aborts. The position on the tape is threaded through. -/
def Rng.below (g : Rng) (n pos : Nat) : Res (Nat × Nat) :=
  if n = 0 ∨ n > g.max then .error .abort else .ok (g.tape pos % n, pos + 1)

/-- `psudb::Alias`: weights and a random number to an index. -/
abbrev AliasFn := List Nat → Nat → Nat

/-- The contract of the alias structure: an index with positive weight is drawn, if there is any. -/
def AliasFn.Ok (al : AliasFn) : Prop := ∀ ws x, 0 < ws.sum → ∃ w, ws[al ws x]? = some w ∧ 0 < w

/-- Repeat a random draw `n` times, collecting the produced elements. -/
def drawMany {α : Type} (f : Nat → Res (List α × Nat)) : Nat → Nat → Res (List α × Nat)
  | 0, pos => .ok ([], pos)
  | n+1, pos => do
    let (x, pos) ← f pos
    let (xs, pos) ← drawMany f n pos
    .ok (x ++ xs, pos)

/-- The loop of `distribute_query` drawing a source per sample (irs.h 148-164, wss.h 122-130): number of samples for each of
`m` sources, source 0 being the buffer. An index outside the sources would be an out-of-bounds write. -/
def distribute (al : AliasFn) (ws : List Nat) (g : Rng) : Nat → Nat → List Nat → Res (List Nat × Nat)
  | 0, pos, acc => .ok (acc, pos)
  | n+1, pos, acc =>
    let i := al ws (g.tape pos)
    if i < acc.length then distribute al ws g n (pos+1) (acc.modify i (· + 1)) else .error .ub

/-! ### IRS -/

namespace Irs
variable {R K : Type} [LinearOrder R] [LinearOrder K] [HasKey R K]

/-- `LocalQuery` (irs.h 31-37) with its shard: the record array, `lower_idx`, `upper_idx`. -/
structure Local (R : Type) where
  data : List (Wrapped R)
  lower : Nat
  upper : Nat

/-- `size_t` subtraction `upper_idx - lower_idx`, wrapping. -/
def Local.span (q : Local R) : Nat := if q.lower ≤ q.upper then q.upper - q.lower else q.upper + 2 ^ 64 - q.lower

/-- `total_weight`, irs.h 64-68. -/
def Local.weight (q : Local R) : Nat := if q.lower = q.data.length then 0 else q.span

/-- `local_preproc`, irs.h 56-72. -/
def preproc (lb ub : LB R K) (lo hi : K) (s : Shard R) : Res (Local R) := do
  let l ← lb s.data lo
  let u ← ub s.data hi
  .ok ⟨s.data, l, u⟩

/-- Key in the query range. -/
def inR (lo hi : K) (w : Wrapped R) : Bool := decide (lo ≤ key w.record) && decide (key w.record ≤ hi)

/-- One iteration of the loop of `local_query`, irs.h 177-184. `get_record_at` gives null out of range (ISAMTree.h 171-173),
which is dereferenced. -/
def drawShard (g : Rng) (q : Local R) (pos : Nat) : Res (List (Wrapped R) × Nat) := do
  let (i, pos) ← if q.span > 0 then g.below q.span pos else .ok (0, pos)
  let w ← getR q.data (q.lower + i)
  .ok ([w], pos)

/-- `local_query`, irs.h 166-187. -/
def localQuery (g : Rng) (q : Local R) (n pos : Nat) : Res (List (Wrapped R) × Nat) :=
  if n = 0 ∨ q.lower = q.data.length then .ok ([], pos) else drawMany (drawShard g q) n pos

/-- One iteration of `local_query_buffer` with rejection, irs.h 195-203; `buf` is the buffer content. -/
def drawReject (g : Rng) (lo hi : K) (buf : List (Wrapped R)) (pos : Nat) : Res (List (Wrapped R) × Nat) := do
  let (i, pos) ← g.below buf.length pos
  let w ← getR buf i
  .ok (if inR lo hi w then [w] else [], pos)

/-- One iteration without rejection, irs.h 208-212; `recs` are the in-range records collected by `local_preproc_buffer`. -/
def drawRec (g : Rng) (recs : List (Wrapped R)) (pos : Nat) : Res (List (Wrapped R) × Nat) := do
  let (i, pos) ← g.below recs.length pos
  let w ← getR recs i
  .ok ([w], pos)

/-- `local_query_buffer`, irs.h 189-215. -/
def bufferQuery (rej : Bool) (g : Rng) (lo hi : K) (buf : List (Wrapped R)) (n pos : Nat) : Res (List (Wrapped R) × Nat) :=
  if rej then drawMany (drawReject g lo hi buf) n pos
  else drawMany (drawRec g (buf.filter (inR lo hi))) n pos

/-- The weights given to the alias structure, irs.h 114-126. -/
def weights (rej : Bool) (lo hi : K) (buf : List (Wrapped R)) (qs : List (Local R)) : List Nat :=
  (if rej then buf.length else (buf.filter (inR lo hi)).length) :: qs.map Local.weight

/-- `distribute_query`, irs.h 98-164: if the total weight is 0 all sample sizes are (and stay) 0. -/
def distributeQuery (rej : Bool) (al : AliasFn) (g : Rng) (lo hi : K) (buf : List (Wrapped R)) (qs : List (Local R)) (n pos : Nat) :
    Res (List Nat × Nat) :=
  let ws := weights rej lo hi buf qs
  if ws.sum = 0 then .ok (ws.map (fun _ => 0), pos) else distribute al ws g n pos (ws.map (fun _ => 0))

/-- The local queries of one round. -/
def shardQueries (g : Rng) : List (Local R) → List Nat → Nat → Res (List (Wrapped R) × Nat)
  | q :: qs, n :: ns, pos => do
    let (x, pos) ← localQuery g q n pos
    let (xs, pos) ← shardQueries g qs ns pos
    .ok (x ++ xs, pos)
  | _, _, pos => .ok ([], pos)

/-- One round of the driver loop: distribute `n` samples, run the local queries, collect (combine, irs.h 217-225). -/
def round (rej : Bool) (al : AliasFn) (g : Rng) (lo hi : K) (buf : List (Wrapped R)) (qs : List (Local R)) (n pos : Nat) :
    Res (List R × Nat) := do
  let (ns, pos) ← distributeQuery rej al g lo hi buf qs n pos
  match ns with
  | nb :: ns => do
    let (b, pos) ← bufferQuery rej g lo hi buf nb pos
    let (s, pos) ← shardQueries g qs ns pos
    .ok ((b ++ s).map Wrapped.record, pos)
  | [] => .error .ub

/-- The driver loop with `repeat` (irs.h 227-237): `n` is `parms->sample_size`, reduced by the size of the whole output so
far. Stops after `fuel` rounds with `none`. -/
def loop (rej : Bool) (al : AliasFn) (g : Rng) (lo hi : K) (buf : List (Wrapped R)) (qs : List (Local R)) :
    Nat → Nat → Nat → List R → Res (Option (List R))
  | 0, _, _, _ => .ok none
  | fuel+1, n, pos, out => do
    let (r, pos) ← round rej al g lo hi buf qs n pos
    let out := out ++ r
    if out.length < n then loop rej al g lo hi buf qs fuel (n - out.length) pos out else .ok (some out)

end Irs

/-- An IRS query on an index: `none` if it has not finished after `fuel` rounds. -/
def Index.irs {R K : Type} [LinearOrder R] [LinearOrder K] [HasKey R K] (rej : Bool) (al : AliasFn) (g : Rng) (lb ub : LB R K)
    (d : Index R) (lo hi : K) (n fuel : Nat) : Res (Option (List R)) := do
  let buf ← d.buf.view.gets
  let qs ← d.str.visible.mapM (Irs.preproc lb ub lo hi)
  Irs.loop rej al g lo hi buf qs fuel n 0 []

/-- The static-structure path of an IRS query (`buffer_query == nullptr`, irs.h 106-111): the whole sample from one shard. -/
def irsStatic {R K : Type} [LinearOrder R] [LinearOrder K] [HasKey R K] (g : Rng) (lb ub : LB R K) (s : Shard R) (lo hi : K) (n : Nat) :
    Res (List R) := do
  let q ← Irs.preproc lb ub lo hi s
  let (r, _) ← Irs.localQuery g q n 0
  .ok (r.map Wrapped.record)

/-! ### WSS -/

namespace Wss
variable {R : Type}

/-- `cutoff = buffer->get_record_count() - 1`, wss.h 69 (unsigned). -/
def cutoff (buf : List (Wrapped R)) : Nat := if buf.length = 0 then 2 ^ 64 - 1 else buf.length - 1

/-- `max_weight`, wss.h 71-81. -/
def maxWeight (wt : R → Nat) (buf : List (Wrapped R)) : Nat := (buf.map (fun w => wt w.record)).foldr Nat.max 0

/-- Total weight, wss.h 72-76, Alias.h 63-66. -/
def total (wt : R → Nat) (l : List (Wrapped R)) : Nat := (l.map (fun w => wt w.record)).sum

/-- One iteration of `local_query`, wss.h 140-145: an alias draw, tagged records are dropped. -/
def drawShard (wt : R → Nat) (al : AliasFn) (g : Rng) (data : List (Wrapped R)) (pos : Nat) : Res (List (Wrapped R) × Nat) := do
  let w ← getR data (al (data.map (fun w => wt w.record)) (g.tape pos))
  .ok (if w.isDeleted then [] else [w], pos + 1)

/-- One iteration of `local_query_buffer`, wss.h 154-162: uniform index below the cutoff, then rejection by weight. The
number `gsl_rng_uniform` is `x / D` with `x < D`. -/
def drawBuf (wt : R → Nat) (D : Nat) (g : Rng) (buf : List (Wrapped R)) (pos : Nat) : Res (List (Wrapped R) × Nat) := do
  let (i, pos) ← g.below (cutoff buf) pos
  let w ← getR buf i
  let ok := decide (g.tape pos % D * maxWeight wt buf ≤ wt w.record * D) && !w.isDeleted
  .ok (if ok then [w] else [], pos + 1)

/-- The local queries of one round. -/
def shardQueries (wt : R → Nat) (al : AliasFn) (g : Rng) : List (List (Wrapped R)) → List Nat → Nat → Res (List (Wrapped R) × Nat)
  | q :: qs, n :: ns, pos => do
    let (x, pos) ← drawMany (drawShard wt al g q) n pos
    let (xs, pos) ← shardQueries wt al g qs ns pos
    .ok (x ++ xs, pos)
  | _, _, pos => .ok ([], pos)

/-- The driver loop with `repeat` (wss.h 177-187). `ns` are the sample sizes stored in the local queries: `distribute_query`
adds to them and never resets them (wss.h 111 only on the first call, 122-130). -/
def loop (wt : R → Nat) (D : Nat) (al : AliasFn) (g : Rng) (buf : List (Wrapped R)) (qs : List (List (Wrapped R))) :
    Nat → Nat → Nat → List Nat → List R → Res (Option (List R))
  | 0, _, _, _, _ => .ok none
  | fuel+1, n, pos, ns, out => do
    let (ns, pos) ← distribute al (total wt buf :: qs.map (total wt)) g n pos ns
    match ns with
    | nb :: nss => do
      let (b, pos) ← drawMany (drawBuf wt D g buf) nb pos
      let (s, pos) ← shardQueries wt al g qs nss pos
      let out := out ++ (b ++ s).map Wrapped.record
      if out.length < n then loop wt D al g buf qs fuel (n - out.length) pos ns out else .ok (some out)
    | [] => .error .ub

end Wss

/-- A WSS query on an index. -/
def Index.wss {R : Type} (wt : R → Nat) (D : Nat) (al : AliasFn) (g : Rng) (d : Index R) (n fuel : Nat) : Res (Option (List R)) := do
  let buf ← d.buf.view.gets
  let qs := d.str.visible.map Shard.data
  Wss.loop wt D al g buf qs fuel n 0 (List.replicate (qs.length + 1) 0) []

/-- The static-structure path of a WSS query (`buffer_query == nullptr`, wss.h 97-102): the whole sample from one shard. -/
def wssStatic {R : Type} (wt : R → Nat) (al : AliasFn) (g : Rng) (s : Shard R) (n : Nat) : Res (List R) := do
  let (r, _) ← drawMany (Wss.drawShard wt al g s.data) n 0
  .ok (r.map Wrapped.record)

end DE
