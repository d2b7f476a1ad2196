import Verif.Model.SortedShard

/-!
Models of `include/query/rangequery.h`, `rangecount.h`, `pointlookup.h` and the query driver
`DynamicExtension::async_query` (DynamicExtension.h 609-680) for them. None of these queries
repeats, and only the point lookup sets EARLY_ABORT.
-/

namespace DE
variable {R K : Type} [LinearOrder R] [LinearOrder K] [HasKey R K]

/-! ### Range query -/

/-- `lower <= key <= upper`. -/
def inRange (lo hi : K) (w : Wrapped R) : Bool := decide (lo ≤ key w.record) && decide (key w.record ≤ hi)

/-- `rq::Query::local_preproc` (rangequery.h 45-53) and `local_query` (70-103). -/
def rqLocal (lb : LB R K) (s : Shard R) (lo hi : K) : Res (List (Wrapped R)) := do
  let idx ← lb s.data lo
  if idx = s.data.length then .ok []
  else if idx > s.data.length then .error .ub
  else .ok (((s.data.drop idx).dropWhile (fun w => decide (key w.record < lo))).takeWhile
              (fun w => decide (key w.record ≤ hi)))

/-- `rq::Query::local_query_buffer`, rangequery.h 105-119. -/
def rqBuffer (v : View R) (lo hi : K) : Res (List (Wrapped R)) := do
  let l ← v.gets
  .ok (l.filter (inRange lo hi))

/-- `rq::Query::combine`, rangequery.h 121-179. Local result `i` is pushed with version
`n - i - 1`, i.e. its position in the reversed list; empty results are not pushed. -/
def rqCombine (pq : PQ R) (results : List (List (Wrapped R))) : List R :=
  (mergeAll pq (fun w => !w.isTombstone) results.reverse).map Wrapped.record

/-- `async_query` for `rq::Query`: buffer result first, then the shards. -/
def Index.rangeQuery (pq : PQ R) (lb : LB R K) (d : Index R) (lo hi : K) : Res (List R) := do
  let b ← rqBuffer d.buf.view lo hi
  let rs ← d.str.visible.mapM (fun s => rqLocal lb s lo hi)
  .ok (rqCombine pq (b :: rs))

/-! ### Range count -/

/-- `rc::Query::local_query`, rangecount.h 76-117: no element or one (record count, tombstone
count) pair. -/
def rcLocal (lb : LB R K) (s : Shard R) (lo hi : K) : Res (List (Nat × Nat)) := do
  let idx ← lb s.data lo
  if idx = s.data.length then .ok []
  else if idx > s.data.length then .error .ub
  else
    let l := (((s.data.drop idx).dropWhile (fun w => decide (key w.record < lo))).takeWhile
              (fun w => decide (key w.record ≤ hi))).filter (fun w => !w.isDeleted)
    .ok [(l.length, tsCount l)]

/-- `rc::Query::local_query_buffer`, rangecount.h 119-141. -/
def rcBuffer (v : View R) (lo hi : K) : Res (List (Nat × Nat)) := do
  let l ← v.gets
  let l := (l.filter (inRange lo hi)).filter (fun w => !w.isDeleted)
  .ok [(l.length, tsCount l)]

/-- The loop of `rc::Query::combine`, rangecount.h 149-152. Reading element 0 of an empty vector is UB. -/
def rcSum : List (List (Nat × Nat)) → Res (Nat × Nat)
  | [] => .ok (0, 0)
  | [] :: _ => .error .ub
  | ((r, t) :: _) :: ls => do
    let (r', t') ← rcSum ls
    .ok (r + r', t + t')

/-- `rc::Query::combine`, rangecount.h 143-160. -/
def rcCombine (results : List (List (Nat × Nat))) : Res Nat := do
  let (r, t) ← rcSum results
  let t := if t > r then r else t
  .ok (r - t)

/-- `async_query` for `rc::Query`. -/
def Index.rangeCount (lb : LB R K) (d : Index R) (lo hi : K) : Res Nat := do
  let b ← rcBuffer d.buf.view lo hi
  let rs ← d.str.visible.mapM (fun s => rcLocal lb s lo hi)
  rcCombine (b :: rs)

/-! ### Point lookup -/

/-- `pl::Query::local_query_buffer`, pointlookup.h 74-88: first (oldest) entry with the key. -/
def plBuffer (v : View R) (k : K) : Res (List (Wrapped R)) := do
  let l ← v.gets
  match l.find? (fun w => decide (key w.record = k)) with
  | some w => .ok [w]
  | none => .ok []

/-- `pl::Query::local_query`, pointlookup.h 62-72: `point_lookup({key, 0})` of the shard, here an
arbitrary function from key to index. -/
def plLocal (lookupKey : Shard R → K → Res (Option Nat)) (s : Shard R) (k : K) : Res (List (Wrapped R)) := do
  match ← lookupKey s k with
  | some i => do
    let w ← getR s.data i
    .ok [w]
  | none => .ok []

/-- The driver loop with EARLY_ABORT, DynamicExtension.h 634-660: stop at the first non-empty local
result. -/
def plShards (lookupKey : Shard R → K → Res (Option Nat)) (k : K) : List (Shard R) → Res (List (Wrapped R))
  | [] => .ok []
  | s :: ss => do
    match ← plLocal lookupKey s k with
    | [] => plShards lookupKey k ss
    | w :: _ => .ok [w]

/-- `pl::Query::combine`, pointlookup.h 91-104, on the first non-empty result. -/
def plCombine : List (Wrapped R) → List R
  | [] => []
  | w :: _ => if w.isDeleted || w.isTombstone then [] else [w.record]

/-- `async_query` for `pl::Query`. -/
def Index.pointLookup (lookupKey : Shard R → K → Res (Option Nat)) (d : Index R) (k : K) : Res (List R) := do
  match ← plBuffer d.buf.view k with
  | w :: _ => .ok (plCombine [w])
  | [] => do
    let r ← plShards lookupKey k d.str.visible
    .ok (plCombine r)

end DE
