import Verif.Model.Query
import Verif.Model.Sampling
import Verif.Model.VPTree

/-!
The query interface (`include/framework/interface/Query.h` 33-118) and the driver `DynamicExtension::async_query`
(DynamicExtension.h 609-680) for an arbitrary, possibly user-defined, query class; then the query classes of the repository
written against it. `Model/Query.lean`, `Model/Sampling.lean` and `Model/VPTree.lean` have the driver specialised by hand;
`Proofs/Driver.lean` shows that they are what this driver computes.
-/

namespace DE

/-- A query class, Query.h 38-118. `W` is whatever outside the framework the methods read and write (the generator behind
`parms->rng`). `LocalQuery*` and `LocalQueryBuffer*` arguments are returned in their new state, as are the parameters where
the method gets a pointer to them. -/
structure QueryClass (R W P LQ BQ LR Out : Type) where
  /-- `local_preproc_buffer`, Query.h 58-61. -/
  preprocBuffer : View R → P → W → Res (BQ × W)
  /-- `local_preproc`, Query.h 49. -/
  preproc : Shard R → P → W → Res (LQ × W)
  /-- `distribute_query`, Query.h 68. -/
  distribute : P → List LQ → BQ → W → Res ((P × List LQ × BQ) × W)
  /-- `local_query_buffer`, Query.h 83-86. -/
  localBuffer : BQ → W → Res ((List LR × BQ) × W)
  /-- `local_query`, Query.h 74-77. -/
  localShard : Shard R → LQ → W → Res ((List LR × LQ) × W)
  /-- `combine`, Query.h 93: appends to the output vector. -/
  combine : List (List LR) → P → List Out → Res (List Out)
  /-- `repeat`, Query.h 104-106: `none` is `false`. -/
  again : P → List Out → List LQ → BQ → W → Res (Option (P × List LQ × BQ) × W)
  /-- `EARLY_ABORT`, Query.h 117. -/
  earlyAbort : Bool

namespace QueryClass
variable {R W P LQ BQ LR Out : Type} (Q : QueryClass R W P LQ BQ LR Out)

/-- `get_local_queries`, ExtensionStructure.h 522-533 and InternalLevel.h 162-174, on the visited shards. -/
def locals (p : P) : List (Shard R) → W → Res (List LQ × W)
  | [], w => .ok ([], w)
  | s :: ss, w => do
    let (q, w) ← Q.preproc s p w
    let (qs, w) ← locals p ss w
    .ok (q :: qs, w)

/-- The shard part of the loop DynamicExtension.h 634-660. `stop`: a result was found and EARLY_ABORT ended the loop; the
remaining entries of `query_results` stay empty. A missing local query would be read out of bounds. -/
def shardRound : Bool → List (Shard R) → List LQ → W → Res ((List (List LR) × List LQ) × W)
  | _, [], qs, w => .ok (([], qs), w)
  | true, _ :: ss, qs, w => do
    let ((rs, qs), w) ← shardRound true ss qs w
    .ok (([] :: rs, qs), w)
  | false, _ :: _, [], _ => .error .ub
  | false, s :: ss, q :: qs, w => do
    let ((r, q), w) ← Q.localShard s q w
    let ((rs, qs), w) ← shardRound (Q.earlyAbort && !r.isEmpty) ss qs w
    .ok ((r :: rs, q :: qs), w)

/-- One pass of the loop DynamicExtension.h 634-660: the buffer query, then the shards. -/
def round (ss : List (Shard R)) (qs : List LQ) (b : BQ) (w : W) : Res ((List (List LR) × List LQ × BQ) × W) := do
  let ((r, b), w) ← Q.localBuffer b w
  let ((rs, qs), w) ← Q.shardRound (Q.earlyAbort && !r.isEmpty) ss qs w
  .ok ((r :: rs, qs, b), w)

/-- The `do ... while (repeat)` loop, DynamicExtension.h 631-669. `none`: not finished after `fuel` rounds. -/
def loop (ss : List (Shard R)) : Nat → P → List LQ → BQ → List Out → W → Res (Option (List Out))
  | 0, _, _, _, _, _ => .ok none
  | fuel+1, p, qs, b, out, w => do
    let ((rs, qs, b), w) ← Q.round ss qs b w
    let out ← Q.combine rs p out
    let (o, w) ← Q.again p out qs b w
    match o with
    | none => .ok (some out)
    | some (p, qs, b) => loop ss fuel p qs b out w

end QueryClass

/-- `async_query`, DynamicExtension.h 609-680, on the current state of an index. -/
def Index.query {R W P LQ BQ LR Out : Type} (Q : QueryClass R W P LQ BQ LR Out) (d : Index R) (fuel : Nat) (p : P) (w : W) :
    Res (Option (List Out)) := do
  let (b, w) ← Q.preprocBuffer d.buf.view p w
  let (qs, w) ← Q.locals p d.str.visible w
  let ((p, qs, b), w) ← Q.distribute p qs b w
  Q.loop d.str.visible fuel p qs b [] w

/-! ### The query classes of the repository -/

section
variable {R K : Type} [LinearOrder R] [LinearOrder K] [HasKey R K]

/-- `rq::Query`, rangequery.h: the parameters are the bounds, the local query keeps `start_idx` (45-53). -/
def rqClass (pq : PQ R) (lb : LB R K) : QueryClass R Unit (K × K) (Nat × K × K) (View R × K × K) (Wrapped R) R where
  preprocBuffer := fun v p w => .ok ((v, p), w)
  preproc := fun s p w => do
    let idx ← lb s.data p.1
    .ok ((idx, p), w)
  distribute := fun p qs b w => .ok ((p, qs, b), w)
  localBuffer := fun b w => do
    let l ← b.1.gets
    .ok ((l.filter (inRange b.2.1 b.2.2), b), w)
  localShard := fun s q w =>
    if q.1 = s.data.length then .ok (([], q), w)
    else if q.1 > s.data.length then .error .ub
    else .ok ((((s.data.drop q.1).dropWhile (fun x => decide (key x.record < q.2.1))).takeWhile
      (fun x => decide (key x.record ≤ q.2.2)), q), w)
  combine := fun rs _ out => .ok (out ++ rqCombine pq rs)
  again := fun _ _ _ _ w => .ok (none, w)
  earlyAbort := false

/-- `rc::Query`, rangecount.h. -/
def rcClass (lb : LB R K) : QueryClass R Unit (K × K) (Nat × K × K) (View R × K × K) (Nat × Nat) Nat where
  preprocBuffer := fun v p w => .ok ((v, p), w)
  preproc := fun s p w => do
    let idx ← lb s.data p.1
    .ok ((idx, p), w)
  distribute := fun p qs b w => .ok ((p, qs, b), w)
  localBuffer := fun b w => do
    let r ← rcBuffer b.1 b.2.1 b.2.2
    .ok ((r, b), w)
  localShard := fun s q w =>
    if q.1 = s.data.length then .ok (([], q), w)
    else if q.1 > s.data.length then .error .ub
    else
      let l := (((s.data.drop q.1).dropWhile (fun x => decide (key x.record < q.2.1))).takeWhile
        (fun x => decide (key x.record ≤ q.2.2))).filter (fun x => !x.isDeleted)
      .ok (([(l.length, tsCount l)], q), w)
  combine := fun rs _ out => do
    let n ← rcCombine rs
    .ok (out ++ [n])
  again := fun _ _ _ _ w => .ok (none, w)
  earlyAbort := false

/-- `pl::Query`, pointlookup.h. -/
def plClass (f : Shard R → K → Res (Option Nat)) : QueryClass R Unit K K (View R × K) (Wrapped R) R where
  preprocBuffer := fun v p w => .ok ((v, p), w)
  preproc := fun _ p w => .ok (p, w)
  distribute := fun p qs b w => .ok ((p, qs, b), w)
  localBuffer := fun b w => do
    let r ← plBuffer b.1 b.2
    .ok ((r, b), w)
  localShard := fun s q w => do
    let r ← plLocal f s q
    .ok ((r, q), w)
  combine := fun rs _ out => .ok (out ++ plCombine rs.flatten)
  again := fun _ _ _ _ w => .ok (none, w)
  earlyAbort := true

end

/-- `knn::Query`, knn.h; `treeOf` gives the tree of a shard. -/
def knnClass {R 𝔽 : Type} [LinearOrder 𝔽] [Add 𝔽] [Sub 𝔽] (q : MaxQ R 𝔽) (dist : R → R → 𝔽) (treeOf : Shard R → Res (VP.Tree R 𝔽)) :
    QueryClass R Unit (R × Nat) (R × Nat) (View R × R × Nat) R R where
  preprocBuffer := fun v p w => .ok ((v, p), w)
  preproc := fun _ p w => .ok (p, w)
  distribute := fun p qs b w => .ok ((p, qs, b), w)
  localBuffer := fun b w => do
    let buf ← b.1.gets
    let r ← knnBuffer q dist buf b.2.1 b.2.2
    .ok ((r, b), w)
  localShard := fun s p w => do
    let t ← treeOf s
    let r ← knnLocal q dist t p.1 p.2
    .ok ((r, p), w)
  combine := fun rs p out => do
    let r ← knnCombine q dist p.1 p.2 rs
    .ok (out ++ r)
  again := fun _ _ _ _ w => .ok (none, w)
  earlyAbort := false

/-- `irs::Query`, irs.h: the parameters are the bounds and the sample size, the world is the position on the random tape. Local
queries carry their sample size (31-47). -/
def irsClass {R K : Type} [LinearOrder R] [LinearOrder K] [HasKey R K] (rej : Bool) (al : AliasFn) (g : Rng) (lb ub : LB R K) :
    QueryClass R Nat (K × K × Nat) (Irs.Local R × Nat) (List (Wrapped R) × (K × K) × Nat) (Wrapped R) R where
  preprocBuffer := fun v p w => do
    let l ← v.gets
    .ok ((l, (p.1, p.2.1), 0), w)
  preproc := fun s p w => do
    let q ← Irs.preproc lb ub p.1 p.2.1 s
    .ok ((q, 0), w)
  distribute := dist
  localBuffer := fun b w => do
    let (r, w) ← Irs.bufferQuery rej g b.2.1.1 b.2.1.2 b.1 b.2.2 w
    .ok ((r, b), w)
  localShard := fun _ q w => do
    let (r, w) ← Irs.localQuery g q.1 q.2 w
    .ok ((r, q), w)
  combine := fun rs _ out => .ok (out ++ rs.flatten.map Wrapped.record)
  again := fun p out qs b w =>
    if out.length < p.2.2 then do
      let (x, w) ← dist (p.1, p.2.1, p.2.2 - out.length) qs b w
      .ok (some x, w)
    else .ok (none, w)
  earlyAbort := false
where
  /-- `distribute_query`, irs.h 98-164. -/
  dist (p : K × K × Nat) (qs : List (Irs.Local R × Nat)) (b : List (Wrapped R) × (K × K) × Nat) (w : Nat) :
      Res (((K × K × Nat) × List (Irs.Local R × Nat) × (List (Wrapped R) × (K × K) × Nat)) × Nat) := do
    let (ns, w) ← Irs.distributeQuery rej al g p.1 p.2.1 b.1 (qs.map Prod.fst) p.2.2 w
    match ns with
    | nb :: ns => .ok ((p, (qs.map Prod.fst).zip ns, (b.1, b.2.1, nb)), w)
    | [] => .error .ub

/-- `wss::Query`, wss.h: the only parameter besides the generator is the sample size; sample sizes are kept in the local queries
and only ever added to. -/
def wssClass {R : Type} (wt : R → Nat) (D : Nat) (al : AliasFn) (g : Rng) :
    QueryClass R Nat Nat (List (Wrapped R) × Nat) (List (Wrapped R) × Nat) (Wrapped R) R where
  preprocBuffer := fun v _ w => do
    let l ← v.gets
    .ok ((l, 0), w)
  preproc := fun s _ w => .ok ((s.data, 0), w)
  distribute := dist
  localBuffer := fun b w => do
    let (r, w) ← drawMany (Wss.drawBuf wt D g b.1) b.2 w
    .ok ((r, b), w)
  localShard := fun _ q w => do
    let (r, w) ← drawMany (Wss.drawShard wt al g q.1) q.2 w
    .ok ((r, q), w)
  combine := fun rs _ out => .ok (out ++ rs.flatten.map Wrapped.record)
  again := fun n out qs b w =>
    if out.length < n then do
      let (x, w) ← dist (n - out.length) qs b w
      .ok (some x, w)
    else .ok (none, w)
  earlyAbort := false
where
  /-- `distribute_query`, wss.h 89-130. -/
  dist (n : Nat) (qs : List (List (Wrapped R) × Nat)) (b : List (Wrapped R) × Nat) (w : Nat) :
      Res ((Nat × List (List (Wrapped R) × Nat) × (List (Wrapped R) × Nat)) × Nat) := do
    let (ns, w) ← distribute al (Wss.total wt b.1 :: (qs.map Prod.fst).map (Wss.total wt)) g n w (b.2 :: qs.map Prod.snd)
    match ns with
    | nb :: ns => .ok ((n, (qs.map Prod.fst).zip ns, (b.1, nb)), w)
    | [] => .error .ub

end DE
